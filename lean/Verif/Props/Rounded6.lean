import Verif.Props.Rounded4
import Verif.Props.Sieve3
import Verif.Props.Sieve5
import Verif.Props.Prep3
import Verif.Props.Copies
import Verif.RoundedBinary

/-!
# C157, C158: counting sieves and normalisation in floating point

`F : Fp R` is any floating-point format (`Verif.Rounded`).
-/

namespace Fruits
set_option linter.unusedSectionVars false
variable {R : Type} [Field R] [LinearOrder R] [IsStrictOrderedRing R] [FloorRing R]

/-! ### rounding keeps signs -/

theorem Fp.rnd_pos (F : Fp R) {x : R} (h : 0 < x) : 0 < F.rnd x := by
  have h1 := (abs_le.1 (F.err x)).1
  rw [abs_of_pos h] at h1
  have h2 : F.u * x < 1 * x := mul_lt_mul_of_pos_right F.u_lt_one h
  linarith

theorem Fp.rnd_le_zero (F : Fp R) {x : R} : F.rnd x ≤ 0 ↔ x ≤ 0 :=
  ⟨fun h => not_lt.1 fun hx => absurd (F.rnd_pos hx) (not_lt.2 h), F.rnd_nonpos⟩

/-! ### C157: counts of positive increments -/

/-- The quantiles `-1`, `0`, `1` stand for `-inf`, `0` and `inf`. -/
def SignQ (q : QVal R) : Prop := q = ⊥ ∨ q = QVal.of 0 ∨ q = ⊤

theorem SignQ.lt {q : QVal R} (h : SignQ q) {v w : R} (hvw : v ≤ 0 ↔ w ≤ 0) : q < QVal.of v ↔ q < QVal.of w := by
  rcases h with rfl | rfl | rfl
  · simp [QVal.of, WithBot.bot_lt_coe]
  · unfold QVal.of
    rw [WithBot.coe_lt_coe, WithTop.coe_lt_coe, WithBot.coe_lt_coe, WithTop.coe_lt_coe, ← not_le, ← not_le, hvw]
  · simp

theorem SignQ.ge {q : QVal R} (h : SignQ q) {v w : R} (hvw : v ≤ 0 ↔ w ≤ 0) : QVal.of v ≤ q ↔ QVal.of w ≤ q := by
  rcases h with rfl | rfl | rfl
  · simp [QVal.of]
  · unfold QVal.of
    rw [WithBot.coe_le_coe, WithTop.coe_le_coe, WithBot.coe_le_coe, WithTop.coe_le_coe, hvw]
  · simp

theorem SignQ.getD {qs : List (QVal R)} (h : ∀ q ∈ qs, SignQ q) (k : ℕ) : SignQ (qs.getD k ⊥) := by
  rw [List.getD_eq_getElem?_getD]
  by_cases hk : k < qs.length
  · rw [List.getElem?_eq_getElem hk]; exact h _ (List.getElem_mem hk)
  · rw [List.getElem?_eq_none (by omega)]; exact Or.inl rfl

theorem slc_tab_map (n : ℕ) (a b : ℤ) (z : ℕ → R) : slc (tab n z) a b = (slc (tab n id) a b).map z := by
  have : tab n z = (tab n id).map z := by rw [map_tab]; rfl
  rw [this, slc, slc, List.map_drop, List.map_take, List.length_map]

theorem opNpi_congr {n : ℕ} {x y : ℕ → R} (h : ∀ t, x t ≤ 0 ↔ y t ≤ 0) (a b : ℤ) {lo hi : QVal R} (hlo : SignQ lo)
    (hhi : SignQ hi) : opNpi (tab n x) a b lo hi = opNpi (tab n y) a b lo hi := by
  have e := slc_tab_map (R := R) n a b
  unfold opNpi band
  rw [e x, e y, List.filter_map, List.filter_map, List.length_map, List.length_map]
  congr 4
  funext t
  simp only [Function.comp, hlo.lt (h t), hhi.ge (h t)]

theorem opLpi_congr {n : ℕ} {x y : ℕ → R} (h : ∀ t, x t ≤ 0 ↔ y t ≤ 0) (a b : ℤ) {lo hi : QVal R} (hlo : SignQ lo)
    (hhi : SignQ hi) : opLpi (tab n x) a b lo hi = opLpi (tab n y) a b lo hi := by
  have e := slc_tab_map (R := R) n a b
  unfold opLpi
  rw [e x, e y, List.map_map, List.map_map]
  congr 4
  funext t
  simp only [Function.comp, hlo.lt (h t), hhi.ge (h t)]

theorem Fp.preTransform_one (F : Fp R) {X : List (List R)} {m n : ℕ} (hX : HasShape2 X m n) :
    F.preTransform 1 X = tab m (fun i => tab n fun t => if t = 0 then 0 else F.rnd (at2 X i t - at2 X i (t - 1))) := by
  have : F.preTransform 1 X = X.map F.increments1 := by simp [Fp.preTransform]
  rw [this]
  conv_lhs => rw [hX.eq_tab, tab2, map_tab]
  exact tab_congr fun i _ => F.increments1_tab n _

theorem preTransform_one {X : List (List R)} {m n : ℕ} (hX : HasShape2 X m n) :
    Fruits.preTransform 1 X = .ok (tab m (fun i => tab n fun t => if t = 0 then 0 else at2 X i t - at2 X i (t - 1))) := by
  have h : X.mapM (increments1 1) = .ok (tab m (fun i => tab n fun t => if t = 0 then 0 else at2 X i t - at2 X i (t - 1))) := by
    conv_lhs => rw [hX.eq_tab, tab2]
    apply mapM_ok_tab
    intro i _
    have := increments1_tab 1 n one_pos (at2 X i)
    rw [Nat.cast_one] at this
    rw [this]
    congr 1
    exact tab_congr fun t _ => by simp [Nat.lt_one_iff]
  simp [preTransform, iterM, h, ok_bind]

theorem Fp.cuts_int (F : Fp R) (T : FloatText R) (C : Data R) (p : Seg R) (m n : ℕ)
    (hp : ∀ c ∈ p.cut, ∃ k, c = .int k) : F.cuts C p m n = p.cuts T C m n := by
  unfold Fp.cuts Seg.cuts
  rw [mapM_congr_mem (h := p.cutColumn T C m n)]
  intro c hc
  obtain ⟨k, rfl⟩ := hp c hc
  rfl

/-- **C157** (counts): `NPI` and `LPI` with integer cuts and quantiles taken from `-1, 0, 1` (the defaults) return the same
numbers in floating point as in exact arithmetic, although the increments they look at are rounded. -/
theorem C157_counts (F : Fp R) (T : FloatText R) (C : Data R) (k : IncKind) (hk : k = .npi ∨ k = .lpi) (p : Seg R)
    (X : List (List R)) {m n : ℕ} (hX : HasShape2 X m n) (hp : ∀ c ∈ p.cut, ∃ k, c = .int k)
    (hq : ∀ qs, p.useQuantiles = .ok qs → ∀ q ∈ qs, q = ⊥ ∨ q = QVal.of 0 ∨ q = ⊤) :
    F.incTransform C k 1 p X = (Sieve.inc k 1 p).transformC T C X := by
  change _ = p.incTransform T C k 1 X
  unfold Fp.incTransform Seg.incTransform
  cases hqs : p.useQuantiles with
  | error e => rfl
  | ok qs =>
    simp only [ok_bind]
    rw [F.preTransform_one hX, preTransform_one hX, ok_bind, F.cuts_int T C p _ _ hp]
    have hlen : ∀ f g : ℕ → ℕ → R, rowLen (tab m fun i => tab n (f i)) = rowLen (tab m fun i => tab n (g i)) := by
      intro f g
      unfold rowLen
      cases m with
      | zero => rfl
      | succ m => simp [tab_succ']
    rw [hlen (fun i t => if t = 0 then 0 else F.rnd (at2 X i t - at2 X i (t - 1)))
      (fun i t => if t = 0 then 0 else at2 X i t - at2 X i (t - 1)), tab_length, tab_length]
    congr 1
    funext cuts
    unfold backend
    rw [tab_length, tab_length]
    apply mapM_congr_mem
    intro i hi
    have hi := List.mem_range.1 hi
    rw [getD_tab hi, getD_tab hi]
    unfold backendRow
    by_cases h : qs = [] ∧ (cuts.getD i []).length ≠ 1
    · rw [if_pos h, if_pos h]
    · rw [if_neg h, if_neg h]
      congr 1
      funext a b
      have hs : ∀ t, (if t = 0 then (0 : R) else F.rnd (at2 X i t - at2 X i (t - 1))) ≤ 0 ↔
          (if t = 0 then (0 : R) else at2 X i t - at2 X i (t - 1)) ≤ 0 := fun t => by
        by_cases ht : t = 0
        · simp [ht]
        · rw [if_neg ht, if_neg ht]; exact F.rnd_le_zero
      rcases hk with rfl | rfl
      · exact opNpi_congr hs _ _ (SignQ.getD (hq qs hqs) _) (SignQ.getD (hq qs hqs) _)
      · exact opLpi_congr hs _ _ (SignQ.getD (hq qs hqs) _) (SignQ.getD (hq qs hqs) _)

/-- **C157**, `NPI()`: in floating point, too, the default `NPI()` returns exactly the number of the time points `t ≥ 1` with
`x_{t-1} < x_t`. -/
theorem C157_default (F : Fp R) (T : FloatText R) (hT : T.Lawful) (C : Data R) (nm : Norm) (X : List (List R)) {m dc n : ℕ}
    (hX : HasShape2 X m n) (hC : HasShape C m dc n) (hm : 0 < m) (hdc : 0 < dc) (hn : 0 < n) :
    ∃ Y, F.incTransform C .npi 1 ({ cut := [.int (-1)], q := [0, 1], norm := nm } : Seg R) X = .ok Y ∧ HasShape2 Y m 1 ∧
      ∀ i < m, at2 Y i 0 = (({t ∈ Finset.Ico 1 n | at2 X i (t - 1) < at2 X i t}.card : ℕ) : R) := by
  rw [C157_counts F T C .npi (Or.inl rfl) _ X hX (by simp) (by
    intro qs hqs q hq
    rw [useQuantiles_01 _ rfl] at hqs
    cases hqs
    simp at hq
    tauto)]
  exact C64_default T hT C nm X hX hC hm hdc hn

/-! ### C157: proportions -/

theorem Fp.ppvCount_eq (F : Fp R) (bs : List Bool) : F.ppvCount bs = F.rnd (Fruits.ppvCount bs) := rfl

theorem Fp.rnd_bit (F : Fp R) (a b : Bool) :
    F.rnd ((if a then 1 else 0) - (if b then 1 else 0)) = 1 ↔ ((if a then (1 : R) else 0) - (if b then 1 else 0)) = 1 := by
  have h0 : (0 : R) ≠ 1 := zero_ne_one
  have h1 : F.rnd (-1) ≠ 1 := fun h => by
    have := F.rnd_nonpos (x := (-1 : R)) (by linarith [zero_lt_one (α := R)])
    rw [h] at this
    linarith [zero_lt_one (α := R)]
  have h2 : (-1 : R) ≠ 1 := by
    intro h; linarith [zero_lt_one (α := R)]
  cases a <;> cases b <;> simp [F.zero, F.one, h1, h2]

theorem Fp.cpvCount_eq (F : Fp R) (bs : List Bool) : F.cpvCount bs = F.rnd (Fruits.cpvCount bs) := by
  obtain ⟨n, f, hf, hn⟩ := list_eq_tab' bs false
  unfold Fp.cpvCount Fruits.cpvCount
  rw [hf]
  have h := Fruits.increments1_tab 1 n one_pos (fun t => if f t = true then (1 : R) else 0)
  rw [Nat.cast_one] at h
  simp only [map_tab, h, F.increments1_tab, tab_length]
  congr 4
  rw [filter_tab_length, filter_tab_length]
  congr 1
  apply Finset.filter_congr
  intro t _
  rw [decide_eq_true_eq, decide_eq_true_eq]
  by_cases ht : t = 0
  · simp [ht]
  · have ht' : ¬ t < 1 := by omega
    simp only [if_neg ht, if_neg ht']; exact F.rnd_bit _ _

theorem PPV.row_rnd (F : Fp R) {c c' : List Bool → R} (h : ∀ bs, c' bs = F.rnd (c bs)) (s : Bool) (qs x : List R) :
    PPV.row c' s qs x = (PPV.row c s qs x).map F.rnd := by
  unfold PPV.row
  cases s <;> simp [h, Function.comp_def]

/-- **C157** (proportions): the features of `PPV` and `CPV` are the correctly rounded exact features — one rounding, however
long the series is. -/
theorem C157_proportions (F : Fp R) (p : PPV R) (X : List (List R)) :
    p.transform F.ppvCount X = (p.transform ppvCount X).map (fun Y => Y.map fun r => r.map F.rnd) ∧
      p.transform F.cpvCount X = (p.transform cpvCount X).map (fun Y => Y.map fun r => r.map F.rnd) := by
  unfold PPV.transform
  cases p.q with
  | none => exact ⟨rfl, rfl⟩
  | some qs =>
    by_cases h : p.nfeatures < 0
    · simp [h, Except.map]
    · simp only [h, if_false, Except.map, List.map_map]
      refine ⟨congrArg _ (List.map_congr_left fun x _ => ?_), congrArg _ (List.map_congr_left fun x _ => ?_)⟩
      · exact PPV.row_rnd F F.ppvCount_eq _ _ _
      · exact PPV.row_rnd F F.cpvCount_eq _ _ _

theorem Fp.rnd_mem (F : Fp R) {x : R} (h0 : 0 ≤ x) (h1 : x ≤ 1) : 0 ≤ F.rnd x ∧ F.rnd x ≤ 1 :=
  ⟨F.rnd_nonneg h0, by rw [← F.one]; exact F.mono h1⟩

/-- **C157**, `PPV` with quantile values `qs`: in floating point, too, the features lie in `[0, 1]`, a greater quantile value
never gives a greater feature, a quantile that all values reach gives exactly 1 and one that none reaches exactly 0. -/
theorem C157_ppv (F : Fp R) (p : PPV R) (qs : List R) (X : List (List R)) {m n : ℕ} (hn : 0 < n)
    (hX : HasShape2 X m n) (hq : p.q = some qs) (hl : qs.length = p.qc.length) (hs : p.segments = false) :
    ∃ Y, p.transform F.ppvCount X = .ok Y ∧ HasShape2 Y m qs.length ∧ ∀ i < m, ∀ j < qs.length,
      0 ≤ at2 Y i j ∧ at2 Y i j ≤ 1 ∧
      (∀ k < qs.length, qs.getD j 0 ≤ qs.getD k 0 → at2 Y i k ≤ at2 Y i j) ∧
      at2 Y i j = F.rnd (({t ∈ Finset.range n | qs.getD j 0 ≤ at2 X i t}.card : R) / (n : R)) ∧
      ((∀ t < n, qs.getD j 0 ≤ at2 X i t) → at2 Y i j = 1) ∧
      (at2 Y i j = 0 ↔ ∀ t < n, at2 X i t < qs.getD j 0) := by
  obtain ⟨Y, h1, h2, h3, h4, h5⟩ := C67_values (⟨fun _ => [], fun _ => none⟩ : FloatText R) [] p qs X hX hq hl hs
  change p.transform ppvCount X = _ at h1
  have hY : ∀ i < m, ∀ j < qs.length, at2 (Y.map fun r => r.map F.rnd) i j = F.rnd (at2 Y i j) := fun i hi j hj => by
    conv_lhs => rw [h2.eq_tab, tab2, map_tab, at2, tab_getD _ _ _ _ hi, map_tab, tab_getD _ _ _ _ hj]
  refine ⟨Y.map fun r => r.map F.rnd, ?_, ⟨by simp [h2.1], ?_⟩, ?_⟩
  · rw [(C157_proportions F p X).1, h1]; rfl
  · intro r hr
    obtain ⟨r', hr', rfl⟩ := List.mem_map.1 hr
    simp [h2.2 r' hr']
  intro i hi j hj
  rw [hY i hi j hj]
  have hmem := F.rnd_mem (h4 i hi j hj).1 (h4 i hi j hj).2
  refine ⟨hmem.1, hmem.2, fun k hk hjk => ?_, ?_, fun hall => ?_, ?_⟩
  · rw [hY i hi k hk]; exact F.mono (h5 i hi j hj k hk hjk)
  · rw [h3 i hi j hj]
  · rw [h3 i hi j hj, Finset.filter_true_of_mem (fun t ht => hall t (Finset.mem_range.1 ht)), Finset.card_range,
      div_self (by exact_mod_cast hn.ne'), F.one]
  · have hz : F.rnd (at2 Y i j) = 0 ↔ at2 Y i j = 0 := by
      constructor
      · intro h
        exact le_antisymm (F.rnd_le_zero.1 h.le) (h4 i hi j hj).1
      · intro h; rw [h, F.zero]
    rw [hz, h3 i hi j hj, div_eq_zero_iff, or_iff_left (by exact_mod_cast hn.ne'), Nat.cast_eq_zero,
      Finset.card_eq_zero, Finset.filter_eq_empty_iff]
    simp [Finset.mem_range]

/-! ### C158 -/

/-- `(v - lo) / (hi - lo)`, computed with three roundings, or 0 if `lo = hi`. -/
def Fp.nrmVal (F : Fp R) (lo hi v : R) : R := if lo = hi then 0 else F.rnd (F.rnd (v - lo) / F.rnd (hi - lo))

theorem block_bounds (sd : Bool) (X : Data R) {d n : ℕ} (hd : 0 < d) (hn : 0 < n) (i : ℕ) :
    ∃ lo hi : ℕ → R, (∀ j < d, IsLeast ((fun p : ℕ × ℕ => at3 X i p.1 p.2) '' block sd d n j) (lo j) ∧
        IsGreatest ((fun p : ℕ × ℕ => at3 X i p.1 p.2) '' block sd d n j) (hi j)) ∧
      (sd = false → ∀ j, minE (tab n (at3 X i j)) = .ok (lo j) ∧ maxE (tab n (at3 X i j)) = .ok (hi j)) ∧
      (sd = true → ∀ j, ((tab2 d n (at3 X i)).mapM minE >>= minE) = .ok (lo j) ∧
        ((tab2 d n (at3 X i)).mapM maxE >>= maxE) = .ok (hi j)) := by
  have hrow : ∀ j, tab n (at3 X i j) ≠ [] := fun j h => by rw [tab_eq_nil] at h; omega
  cases sd with
  | false =>
    refine ⟨fun j => (listMin (tab n (at3 X i j))).getD 0, fun j => (listMax (tab n (at3 X i j))).getD 0, ?_,
      fun _ j => ⟨minE_ok (hrow j), maxE_ok (hrow j)⟩, by simp⟩
    intro j hj
    obtain ⟨lo, hi, e1, e2, h1, h2⟩ := exists_bounds (S := block false d n j) (fun p : ℕ × ℕ => at3 X i p.1 p.2) (hrow j) (by
      intro y
      rw [mem_tab]
      constructor
      · rintro ⟨t, ht, rfl⟩; exact ⟨(j, t), ⟨hj, ht, Or.inr rfl⟩, rfl⟩
      · rintro ⟨⟨j', t⟩, ⟨_, ht, h⟩, rfl⟩
        rcases h with h | h
        · cases h
        · have : j' = j := h
          subst this; exact ⟨t, ht, rfl⟩)
    simp only [e1, e2, Option.getD_some]; exact ⟨h1, h2⟩
  | true =>
    have h1 : (tab2 d n (at3 X i)).mapM minE = .ok (tab d fun j => (listMin (tab n (at3 X i j))).getD 0) :=
      mapM_ok_tab fun j _ => minE_ok (hrow j)
    have h2 : (tab2 d n (at3 X i)).mapM maxE = .ok (tab d fun j => (listMax (tab n (at3 X i j))).getD 0) :=
      mapM_ok_tab fun j _ => maxE_ok (hrow j)
    have hdne : ∀ f : ℕ → R, tab d f ≠ [] := fun f h => by rw [tab_eq_nil] at h; omega
    obtain ⟨a, ha⟩ := listMin_isSome (hdne fun j => (listMin (tab n (at3 X i j))).getD 0)
    obtain ⟨b, hb⟩ := listMax_isSome (hdne fun j => (listMax (tab n (at3 X i j))).getD 0)
    refine ⟨fun _ => a, fun _ => b, ?_, by simp, fun _ _ => ⟨?_, ?_⟩⟩
    · obtain ⟨a1, a2⟩ := listMin_eq_some.1 ha
      obtain ⟨b1, b2⟩ := listMax_eq_some.1 hb
      have hmin : ∀ j, ∃ c, listMin (tab n (at3 X i j)) = some c := fun j => listMin_isSome (hrow j)
      have hmax : ∀ j, ∃ c, listMax (tab n (at3 X i j)) = some c := fun j => listMax_isSome (hrow j)
      intro j0 _
      refine ⟨⟨?_, ?_⟩, ⟨?_, ?_⟩⟩
      · obtain ⟨j, hj, hj'⟩ := mem_tab.1 a1
        obtain ⟨c, hc⟩ := hmin j
        rw [hc] at hj'
        obtain ⟨c1, _⟩ := listMin_eq_some.1 hc
        obtain ⟨t, ht, ht'⟩ := mem_tab.1 c1
        refine ⟨(j, t), ⟨hj, ht, Or.inl rfl⟩, ?_⟩
        simp only [ht', ← hj', Option.getD_some]
      · rintro y ⟨⟨j, t⟩, ⟨hj, ht, _⟩, rfl⟩
        obtain ⟨c, hc⟩ := hmin j
        have h1 := a2 _ (mem_tab.2 ⟨j, hj, rfl⟩)
        rw [hc] at h1
        exact h1.trans ((listMin_eq_some.1 hc).2 _ (mem_tab.2 ⟨t, ht, rfl⟩))
      · obtain ⟨j, hj, hj'⟩ := mem_tab.1 b1
        obtain ⟨c, hc⟩ := hmax j
        rw [hc] at hj'
        obtain ⟨c1, _⟩ := listMax_eq_some.1 hc
        obtain ⟨t, ht, ht'⟩ := mem_tab.1 c1
        refine ⟨(j, t), ⟨hj, ht, Or.inl rfl⟩, ?_⟩
        simp only [ht', ← hj', Option.getD_some]
      · rintro y ⟨⟨j, t⟩, ⟨hj, ht, _⟩, rfl⟩
        obtain ⟨c, hc⟩ := hmax j
        have h1 := b2 _ (mem_tab.2 ⟨j, hj, rfl⟩)
        rw [hc] at h1
        exact le_trans ((listMax_eq_some.1 hc).2 _ (mem_tab.2 ⟨t, ht, rfl⟩)) h1
    · rw [h1, ok_bind, minE, ha]
    · rw [h2, ok_bind, maxE, hb]

theorem bind_ok_split {α β : Type} {x : Except Err α} {f : α → Except Err β} {y : β} (h : (x >>= f) = .ok y) :
    ∃ a, x = .ok a ∧ f a = .ok y := by
  cases x with
  | error e => cases h
  | ok a => exact ⟨a, rfl, h⟩

/-- What `NRM` computes in floating point. -/
theorem Fp.nrm_closed (F : Fp R) (sd : Bool) (X : Data R) {m d n : ℕ} (hX : HasShape X m d n) (hd : 0 < d) (hn : 0 < n) :
    ∃ lo hi : ℕ → ℕ → R, (∀ i < m, ∀ j < d, IsLeast ((fun p : ℕ × ℕ => at3 X i p.1 p.2) '' block sd d n j) (lo i j) ∧
        IsGreatest ((fun p : ℕ × ℕ => at3 X i p.1 p.2) '' block sd d n j) (hi i j)) ∧
      F.nrm sd X = .ok (tab3 m d n fun i j t => F.nrmVal (lo i j) (hi i j) (at3 X i j t)) := by
  choose lo hi h1 h2 h3 using fun i => block_bounds sd X hd hn i
  refine ⟨lo, hi, fun i _ j hj => h1 i j hj, ?_⟩
  have hrows : ∀ i j, (if lo i j ≠ hi i j then F.nrmRow (lo i j) (hi i j) (tab n (at3 X i j))
      else (tab n (at3 X i j)).map fun _ => 0) = tab n fun t => F.nrmVal (lo i j) (hi i j) (at3 X i j t) := by
    intro i j
    by_cases hc : lo i j = hi i j
    · rw [if_neg (by simp [hc]), map_tab]; exact tab_congr fun t _ => by rw [Fp.nrmVal, if_pos hc]
    · rw [if_pos hc, Fp.nrmRow, map_tab]; exact tab_congr fun t _ => by rw [Fp.nrmVal, if_neg hc]
  cases sd with
  | false =>
    unfold Fp.nrm Fp.nrmPerDim
    rw [if_neg (by simp)]
    conv_lhs => rw [hX.eq_tab3, tab3]
    apply mapM_ok_tab
    intro i _
    apply mapM_ok_tab
    intro j _
    rw [(h2 i rfl j).1, ok_bind, (h2 i rfl j).2, ok_bind, hrows]
    rfl
  | true =>
    unfold Fp.nrm Fp.nrmPerSeries
    rw [if_pos rfl]
    conv_lhs => rw [hX.eq_tab3, tab3]
    apply mapM_ok_tab
    intro i _
    have hl : ∀ j, lo i j = lo i 0 := fun j => by
      have := (h3 i rfl j).1.symm.trans (h3 i rfl 0).1
      exact Except.ok.inj this
    have hh : ∀ j, hi i j = hi i 0 := fun j => by
      have := (h3 i rfl j).2.symm.trans (h3 i rfl 0).2
      exact Except.ok.inj this
    obtain ⟨ms, hms, hms'⟩ := bind_ok_split (h3 i rfl 0).1
    obtain ⟨xs, hxs, hxs'⟩ := bind_ok_split (h3 i rfl 0).2
    rw [hms, ok_bind, hxs, ok_bind, hms', ok_bind, hxs', ok_bind]
    have : (if lo i 0 ≠ hi i 0 then (tab2 d n (at3 X i)).map (F.nrmRow (lo i 0) (hi i 0))
        else (tab2 d n (at3 X i)).map fun x => x.map fun _ => 0)
        = tab d fun j => tab n fun t => F.nrmVal (lo i j) (hi i j) (at3 X i j t) := by
      have e : (tab d fun j => tab n fun t => F.nrmVal (lo i j) (hi i j) (at3 X i j t)) = tab d fun j =>
          if lo i 0 ≠ hi i 0 then F.nrmRow (lo i 0) (hi i 0) (tab n (at3 X i j)) else (tab n (at3 X i j)).map fun _ => 0 :=
        tab_congr fun j _ => by rw [← hrows i j, hl j, hh j]
      rw [e]
      by_cases hc : lo i 0 = hi i 0
      · rw [if_neg (by simp [hc]), tab2, map_tab]; exact tab_congr fun j _ => by rw [if_neg (by simp [hc])]
      · rw [if_pos hc, tab2, map_tab]; exact tab_congr fun j _ => by rw [if_pos hc]
    rw [this]
    rfl

theorem Fp.nrmVal_mono (F : Fp R) {lo hi v w : R} (h : lo ≤ hi) (hvw : v ≤ w) : F.nrmVal lo hi v ≤ F.nrmVal lo hi w := by
  unfold Fp.nrmVal
  by_cases hc : lo = hi
  · rw [if_pos hc, if_pos hc]
  · rw [if_neg hc, if_neg hc]
    exact F.mono (div_le_div_of_nonneg_right (F.mono (by linarith)) (F.rnd_nonneg (by linarith)))

theorem Fp.nrmVal_lo (F : Fp R) (lo hi : R) : F.nrmVal lo hi lo = 0 := by
  unfold Fp.nrmVal
  split
  · rfl
  · rw [sub_self, F.zero, zero_div, F.zero]

theorem Fp.nrmVal_hi (F : Fp R) {lo hi : R} (h : lo < hi) : F.nrmVal lo hi hi = 1 := by
  unfold Fp.nrmVal
  rw [if_neg h.ne, div_self (F.rnd_pos (by linarith)).ne', F.one]

theorem Fp.nrmVal_rep (F : Fp R) (lo hi v : R) : F.rnd (F.nrmVal lo hi v) = F.nrmVal lo hi v := by
  unfold Fp.nrmVal
  split
  · exact F.zero
  · exact F.idem _

theorem Fp.nrmVal_unit (F : Fp R) {v : R} (h : F.rnd v = v) : F.nrmVal 0 1 v = v := by
  unfold Fp.nrmVal
  rw [if_neg zero_ne_one, sub_zero, sub_zero, F.one, div_one, h, h]

theorem Fp.rnd_bounds (F : Fp R) {x : R} (h : 0 ≤ x) : (1 - F.u) * x ≤ F.rnd x ∧ F.rnd x ≤ (1 + F.u) * x := by
  have := abs_le.1 (F.err x)
  rw [abs_of_nonneg h] at this
  constructor <;> linarith [this.1, this.2]

/-- The three roundings of a normalised value. -/
theorem Fp.nrmVal_err (F : Fp R) {lo hi v : R} (h : lo < hi) (hv : lo ≤ v) :
    (1 - F.u) ^ 2 / (1 + F.u) * ((v - lo) / (hi - lo)) ≤ F.nrmVal lo hi v ∧
      F.nrmVal lo hi v ≤ (1 + F.u) ^ 2 / (1 - F.u) * ((v - lo) / (hi - lo)) := by
  unfold Fp.nrmVal
  rw [if_neg h.ne]
  have hu := F.u_nonneg
  have hu1 : 0 < 1 - F.u := by linarith [F.u_lt_one]
  have ha : 0 ≤ v - lo := by linarith
  have hb : 0 < hi - lo := by linarith
  obtain ⟨a1, a2⟩ := F.rnd_bounds ha
  obtain ⟨b1, b2⟩ := F.rnd_bounds hb.le
  have hb' : 0 < F.rnd (hi - lo) := F.rnd_pos hb
  have ha' : 0 ≤ F.rnd (v - lo) := F.rnd_nonneg ha
  obtain ⟨c1, c2⟩ := F.rnd_bounds (div_nonneg ha' hb'.le)
  constructor
  · refine le_trans ?_ c1
    have : (1 - F.u) * (v - lo) / ((1 + F.u) * (hi - lo)) ≤ F.rnd (v - lo) / F.rnd (hi - lo) :=
      div_le_div₀ ha' a1 hb' b2
    calc _ = (1 - F.u) * ((1 - F.u) * (v - lo) / ((1 + F.u) * (hi - lo))) := by field_simp
      _ ≤ _ := mul_le_mul_of_nonneg_left this hu1.le
  · refine le_trans c2 ?_
    have : F.rnd (v - lo) / F.rnd (hi - lo) ≤ (1 + F.u) * (v - lo) / ((1 - F.u) * (hi - lo)) :=
      div_le_div₀ (by positivity) a2 (by positivity) b1
    calc _ ≤ (1 + F.u) * ((1 + F.u) * (v - lo) / ((1 - F.u) * (hi - lo))) :=
          mul_le_mul_of_nonneg_left this (by linarith)
      _ = _ := by field_simp

/-- **C158.** `NRM(scale_dim)` in floating point: the shape is kept; every value is in `[0, 1]` (exactly, despite the
rounding); a block that is constant becomes zero, any other attains exactly 0 and exactly 1; the order of the values of a
block is kept; a value differs from the exact normalised value by three roundings; normalising again changes nothing. -/
theorem C158 (F : Fp R) (sd : Bool) (X : Data R) {m d n : ℕ} (hX : HasShape X m d n) (hd : 0 < d) (hn : 0 < n) :
    ∃ Y, F.nrm sd X = .ok Y ∧ HasShape Y m d n ∧
      (∀ i < m, ∀ j < d, ∀ t < n, 0 ≤ at3 Y i j t ∧ at3 Y i j t ≤ 1) ∧
      (∀ i < m, ∀ j < d, (∀ p ∈ block sd d n j, ∀ q ∈ block sd d n j, at3 X i p.1 p.2 = at3 X i q.1 q.2) →
        ∀ t < n, at3 Y i j t = 0) ∧
      (∀ i < m, ∀ j < d, (∃ p ∈ block sd d n j, ∃ q ∈ block sd d n j, at3 X i p.1 p.2 ≠ at3 X i q.1 q.2) →
        (∃ p ∈ block sd d n j, at3 Y i p.1 p.2 = 0) ∧ ∃ p ∈ block sd d n j, at3 Y i p.1 p.2 = 1) ∧
      (∀ i < m, ∀ j < d, ∀ p ∈ block sd d n j, ∀ q ∈ block sd d n j, at3 X i p.1 p.2 ≤ at3 X i q.1 q.2 →
        at3 Y i p.1 p.2 ≤ at3 Y i q.1 q.2) ∧
      (∀ i < m, ∀ j < d, ∀ lo hi, IsLeast ((fun p : ℕ × ℕ => at3 X i p.1 p.2) '' block sd d n j) lo →
        IsGreatest ((fun p : ℕ × ℕ => at3 X i p.1 p.2) '' block sd d n j) hi → lo < hi → ∀ t < n,
        (1 - F.u) ^ 2 / (1 + F.u) * ((at3 X i j t - lo) / (hi - lo)) ≤ at3 Y i j t ∧
        at3 Y i j t ≤ (1 + F.u) ^ 2 / (1 - F.u) * ((at3 X i j t - lo) / (hi - lo))) ∧
      F.nrm sd Y = .ok Y := by
  obtain ⟨lo, hi, hlh, hY⟩ := F.nrm_closed sd X hX hd hn
  have hsame : ∀ i < m, ∀ j < d, ∀ p ∈ block sd d n j, lo i p.1 = lo i j ∧ hi i p.1 = hi i j := by
    rintro i hi' j hj ⟨j', t⟩ ⟨hj', ht, h⟩
    rcases h with h | h
    · subst h
      have hbl : block true d n j' = block true d n j := by ext p; simp [block]
      have a := hlh i hi' j hj
      have b := hlh i hi' j' hj'
      rw [hbl] at b
      exact ⟨b.1.unique a.1, b.2.unique a.2⟩
    · have : j' = j := h
      subst this; exact ⟨rfl, rfl⟩
  set Y := tab3 m d n fun i j t => F.nrmVal (lo i j) (hi i j) (at3 X i j t) with hYdef
  have hYs : HasShape Y m d n := hasShape_tab3 _
  have hYv : ∀ i < m, ∀ j < d, ∀ t < n, at3 Y i j t = F.nrmVal (lo i j) (hi i j) (at3 X i j t) :=
    fun i hi' j hj t ht => at3_tab3 hi' hj ht
  have hYb : ∀ i < m, ∀ j < d, ∀ p ∈ block sd d n j,
      at3 Y i p.1 p.2 = F.nrmVal (lo i j) (hi i j) (at3 X i p.1 p.2) := fun i hi' j hj p hp => by
    rw [hYv i hi' p.1 hp.1 p.2 hp.2.1, (hsame i hi' j hj p hp).1, (hsame i hi' j hj p hp).2]
  have hself : ∀ j < d, ∀ t < n, (j, t) ∈ block sd d n j := fun j hj t ht => ⟨hj, ht, Or.inr rfl⟩
  have hle : ∀ i < m, ∀ j < d, ∀ p ∈ block sd d n j, lo i j ≤ at3 X i p.1 p.2 ∧ at3 X i p.1 p.2 ≤ hi i j :=
    fun i hi' j hj p hp => ⟨(hlh i hi' j hj).1.2 ⟨p, hp, rfl⟩, (hlh i hi' j hj).2.2 ⟨p, hp, rfl⟩⟩
  have hle' : ∀ i < m, ∀ j < d, lo i j ≤ hi i j := fun i hi' j hj =>
    ((hle i hi' j hj _ (hself j hj 0 hn)).1).trans (hle i hi' j hj _ (hself j hj 0 hn)).2
  have hmem : ∀ i < m, ∀ j < d, ∀ p ∈ block sd d n j, 0 ≤ at3 Y i p.1 p.2 ∧ at3 Y i p.1 p.2 ≤ 1 := by
    intro i hi' j hj p hp
    rw [hYb i hi' j hj p hp]
    obtain ⟨a, b⟩ := hle i hi' j hj p hp
    constructor
    · rw [← F.nrmVal_lo (lo i j) (hi i j)]; exact F.nrmVal_mono (hle' i hi' j hj) a
    · by_cases hc : lo i j = hi i j
      · rw [Fp.nrmVal, if_pos hc]; exact zero_le_one
      · rw [← F.nrmVal_hi (lt_of_le_of_ne (hle' i hi' j hj) hc)]; exact F.nrmVal_mono (hle' i hi' j hj) b
  have hatt : ∀ i < m, ∀ j < d, lo i j ≠ hi i j →
      (∃ p ∈ block sd d n j, at3 Y i p.1 p.2 = 0) ∧ ∃ p ∈ block sd d n j, at3 Y i p.1 p.2 = 1 := by
    intro i hi' j hj hc
    obtain ⟨a, ha, ha'⟩ := (hlh i hi' j hj).1.1
    obtain ⟨b, hb, hb'⟩ := (hlh i hi' j hj).2.1
    refine ⟨⟨a, ha, ?_⟩, ⟨b, hb, ?_⟩⟩
    · rw [hYb i hi' j hj a ha]
      beta_reduce at ha'
      rw [ha', F.nrmVal_lo]
    · rw [hYb i hi' j hj b hb]
      beta_reduce at hb'
      rw [hb', F.nrmVal_hi (lt_of_le_of_ne (hle' i hi' j hj) hc)]
  refine ⟨Y, hY, hYs, fun i hi' j hj t ht => hmem i hi' j hj _ (hself j hj t ht), ?_, ?_, ?_, ?_, ?_⟩
  · intro i hi' j hj hc t ht
    rw [hYv i hi' j hj t ht, Fp.nrmVal, if_pos]
    exact (lo_eq_hi_iff (hlh i hi' j hj).1 (hlh i hi' j hj).2).2 hc
  · rintro i hi' j hj ⟨p, hp, q, hq, hpq⟩
    refine hatt i hi' j hj fun h => ?_
    exact hpq ((lo_eq_hi_iff (hlh i hi' j hj).1 (hlh i hi' j hj).2).1 h p hp q hq)
  · intro i hi' j hj p hp q hq hpq
    rw [hYb i hi' j hj p hp, hYb i hi' j hj q hq]
    exact F.nrmVal_mono (hle' i hi' j hj) hpq
  · intro i hi' j hj lo' hh' hl1 hl2 hlt t ht
    rw [hYv i hi' j hj t ht, (hlh i hi' j hj).1.unique hl1, (hlh i hi' j hj).2.unique hl2]
    exact F.nrmVal_err hlt (hl1.2 ⟨(j, t), hself j hj t ht, rfl⟩)
  · obtain ⟨lo', hi2, hlh', hY'⟩ := F.nrm_closed sd Y hYs hd hn
    rw [hY']
    congr 1
    conv_rhs => rw [hYs.eq_tab3]
    apply tab3_congr
    intro i hii j hj t ht
    by_cases hc : lo i j = hi i j
    · have h0 : ∀ p ∈ block sd d n j, at3 Y i p.1 p.2 = 0 := fun p hp => by
        rw [hYb i hii j hj p hp, Fp.nrmVal, if_pos hc]
      have : lo' i j = hi2 i j :=
        (lo_eq_hi_iff (hlh' i hii j hj).1 (hlh' i hii j hj).2).2 fun p hp q hq => by rw [h0 p hp, h0 q hq]
      have h00 := h0 (j, t) (hself j hj t ht)
      simp only at h00
      rw [Fp.nrmVal, if_pos this, h00]
    · obtain ⟨⟨a, ha, ha'⟩, ⟨b, hb, hb'⟩⟩ := hatt i hii j hj hc
      have e0 : lo' i j = 0 := (hlh' i hii j hj).1.unique
        ⟨⟨a, ha, ha'⟩, by rintro y ⟨p, hp, rfl⟩; exact (hmem i hii j hj p hp).1⟩
      have e1 : hi2 i j = 1 := (hlh' i hii j hj).2.unique
        ⟨⟨b, hb, hb'⟩, by rintro y ⟨p, hp, rfl⟩; exact (hmem i hii j hj p hp).2⟩
      rw [e0, e1]
      apply F.nrmVal_unit
      rw [hYv i hii j hj t ht]
      exact F.nrmVal_rep _ _ _

/-! ### Non-vacuity -/

/-- The hypothesis on the quantiles holds for the sieve with the quantiles `-1, 0, 1`. -/
example (qs : List (QVal ℚ)) (h : ({ cut := [.int 2, .int (-1)], q := [-1, 0, 1] } : Seg ℚ).useQuantiles = .ok qs) :
    ∀ q ∈ qs, q = ⊥ ∨ q = QVal.of 0 ∨ q = ⊤ := by
  have : ({ cut := [.int 2, .int (-1)], q := [-1, 0, 1] } : Seg ℚ).useQuantiles = .ok [⊥, QVal.of 0, ⊤] := by
    decide +kernel
  rw [this] at h
  cases h
  simp

/-- With three binary digits the increments of `1, 9/8, 3, 2` are rounded, the counts are the exact ones. -/
example : (Fp.binary 2 : Fp ℚ).preTransform 1 [[1, 19 / 16, 33 / 16, 2]] = [[0, 3 / 16, 7 / 8, -1 / 16]] ∧
    (Fp.binary 1 : Fp ℚ).preTransform 1 [[1, 19 / 16, 33 / 16, 2]] = [[0, 3 / 16, 1, -1 / 16]] ∧
    (Fp.binary 1 : Fp ℚ).incTransform [] .npi 1 { cut := [.int 2, .int (-1)], q := [-1, 0, 1] } [[1, 19 / 16, 33 / 16, 2]]
      = .ok [[1, 1, 1, 1]] := by
  decide +kernel

/-- `1/3` is rounded, and so is the feature. -/
example : ({ qc := [(2, true)], sampleSize := 1, segments := false, q := some [2] } : PPV ℚ).transform
    (Fp.binary 1 : Fp ℚ).ppvCount [[1, 2, 1]] = .ok [[3 / 8]] := by
  decide +kernel

example : (Fp.binary 1 : Fp ℚ).nrm false [[[1, 2, 4], [5, 5, 5]]] = .ok [[[0, 3 / 8, 1], [0, 0, 0]]] ∧
    (Fp.binary 1 : Fp ℚ).nrm true [[[1, 2, 4], [5, 5, 5]]] = .ok [[[0, 1 / 4, 3 / 4], [1, 1, 1]]] := by
  decide +kernel

end Fruits
