import Verif.Props.MissingPrep2
import Verif.Props.MissingSieve2

/-! # C171: missing values and preparateurs, part 3: the theorems -/

namespace Fruits
set_option linter.unusedSectionVars false
open Mv

variable {R : Type} [Field R] [LinearOrder R] [IsStrictOrderedRing R] [FloorRing R]

/-! ## Transforming -/

/-- **C171.** Without missing values the preparateurs do what the model without `nan` says. -/
theorem C171_none_missing [NpMath R] (T : FloatText R) (hT : T.Lawful) {p : Prep R} {q : MPrep R} (hk : KnownPrep p q) (D Y : Data R) :
    q.transformC (knownData D) (knownData Y) = (p.transformC T D Y).map knownData := by
  have h := rel_transform (b := False) T hT hk (fun h => h.elim) (known_dataOf D) (known_dataOf Y)
  revert h
  rcases q.transformC (knownData D) (knownData Y) with e | Z <;> rcases p.transformC T D Y with e' | Z' <;> intro h <;> cases h
  · rfl
  · rename_i h
    rw [dataOf_known id h]; rfl

/-- **C171.** A preparateur without `WIN`, whose fitted state has no missing values, on a dataset with missing values: every entry of the result is
missing or the entry the data without gaps gives (whatever numbers stand for the missing values), and the same exceptions are raised. -/
theorem C171_sound_partial [NpMath R] (T : FloatText R) (hT : T.Lawful) {p : Prep R} {q : MPrep R} (hk : KnownPrep p q) (hq : q.NoWin)
    {C X : Data (Mv R)} {D Y : Data R} (hC : DataOf True C D) (hX : DataOf True X Y) : Both (DataOf True) (q.transformC C X) (p.transformC T D Y) :=
  rel_transform T hT hk (fun _ => hq) hC hX

/-! ## Fitting -/

theorem fit_known_aux [NpMath R] (g : Rng R) (fuel : ℕ) {p : Prep R} {q : MPrep R} (hk : KnownPrep p q) :
    ∀ Y : Data R, Both (fun q' r => ∃ p', r = some p' ∧ KnownPrep p' q') (q.fit g (knownData Y)) (p.fit g fuel Y) := by
  have hs2 : ∀ Y : Data R, shape2 (knownData Y) = shape2 Y := fun Y => rel_shape2 (Q := Entry False) (known_dataOf Y)
  have hent : ∀ Y : Data R, RowOf False (knownData Y).flatten.flatten (entries Y) := fun Y => rel_entries (known_dataOf Y)
  have hnum : ∀ {a : Mv R} {y : R}, Entry False a y → a = .num y := fun h => h.resolve_right fun h => h.1
  induction hk with
  | std p =>
    intro Y
    simp only [MPrep.fit, Prep.fit, MSTD.fit, STD.fit]
    refine .ok ⟨_, rfl, ?_⟩
    cases hp : p.separately with
    | true =>
      simp only [if_true]
      have := KnownPrep.std p
      rwa [hp] at this
    | false =>
      simp only [Bool.false_eq_true, if_false]
      rw [hnum (rel_mean (hent Y))]
      have hv : (if p.var then Mv.npStd (knownData Y).flatten.flatten else 1) = Mv.num (if p.var then Fruits.npStd (entries Y) else 1) := by
        cases p.var
        · rfl
        · exact hnum (rel_npStd (hent Y))
      rw [hv]
      have := KnownPrep.std { p with fitted := some (Fruits.mean (entries Y), if p.var then Fruits.npStd (entries Y) else 1) }
      simpa [hp] using this
  | mav p =>
    intro Y
    simp only [MPrep.fit, Prep.fit]
    refine .ok ⟨_, rfl, ?_⟩
    unfold MAV.fit
    rw [hs2]
    exact .mav _
  | qtc p =>
    intro Y
    simp only [MPrep.fit, Prep.fit, MQTC.fit, QTC.fit]
    have hq : Mv.quantile (knownData Y).flatten.flatten p.q = (Fruits.quantile (entries Y) p.q).map .num := by
      have : (knownData Y).flatten.flatten = (entries Y).map Mv.num := by
        have h := hent Y
        revert h
        generalize (knownData Y).flatten.flatten = l
        generalize entries Y = l'
        intro h
        induction h with
        | nil => rfl
        | cons h _ ih => rw [hnum h, ih]; rfl
      rw [this]
      unfold Mv.quantile
      rw [if_neg (by simp), List.filterMap_map, show (Mv.get? ∘ Mv.num : R → Option R) = some from rfl, List.filterMap_some]
      cases Fruits.quantile (entries Y) p.q <;> rfl
    rw [hq]
    rcases Fruits.quantile (entries Y) p.q with e | v
    · exact .error e
    · exact .ok ⟨_, rfl, KnownPrep.qtc { p with quantile := some v }⟩
  | dil p =>
    intro Y
    have hf : p.fit g (knownData Y) = p.fit g Y := by unfold DIL.fit; rw [hs2]
    simp only [MPrep.fit, Prep.fit, hf]
    rcases p.fit g Y with e | p'
    · exact .error e
    · exact .ok ⟨_, rfl, .dil p'⟩
  | dot p =>
    intro Y
    simp only [MPrep.fit, Prep.fit, DOT.fit, hs2]
    exact .ok ⟨_, rfl, .dot _⟩
  | pdd p =>
    intro Y
    have hf : p.fit (knownData Y) = p.fit Y := by unfold PDD.fit; rw [hs2]
    simp only [MPrep.fit, Prep.fit, hf]
    rcases p.fit Y with e | p'
    · exact .error e
    · exact .ok ⟨_, rfl, .pdd p'⟩
  | dim h dims ih =>
    intro Y
    simp only [MPrep.fit, Prep.fit]
    refine (rel_select (Q := RowOf False) .nil dims (known_dataOf Y)).bind fun u v huv => ?_
    rw [dataOf_known id huv]
    refine (ih v).bind fun q' r hr => ?_
    obtain ⟨p', rfl, hp⟩ := hr
    exact .ok ⟨_, rfl, .dim hp dims⟩
  | new h ih =>
    intro Y
    simp only [MPrep.fit, Prep.fit]
    refine (ih Y).bind fun q' r hr => ?_
    obtain ⟨p', rfl, hp⟩ := hr
    exact .ok ⟨_, rfl, .new hp⟩
  | inc p => intro Y; exact .ok ⟨_, rfl, .inc p⟩
  | nrm sd => intro Y; exact .ok ⟨_, rfl, .nrm sd⟩
  | lag => intro Y; exact .ok ⟨_, rfl, .lag⟩
  | cts p => intro Y; exact .ok ⟨_, rfl, .cts p⟩
  | win p => intro Y; exact .ok ⟨_, rfl, .win p⟩
  | dup => intro Y; exact .ok ⟨_, rfl, .dup⟩

/-- **C171.** Fitting to data without missing values gives the state the model without `nan` describes, or the same exception. -/
theorem C171_fit_known [NpMath R] (g : Rng R) (fuel : ℕ) {p : Prep R} {q : MPrep R} (hk : KnownPrep p q) (Y : Data R) :
    Both (fun q' r => ∃ p', r = some p' ∧ KnownPrep p' q') (q.fit g (knownData Y)) (p.fit g fuel Y) := fit_known_aux g fuel hk Y

/-! ## Increments -/

theorem mv_sub_nan (a b : Mv R) : a - b = nan ↔ a = nan ∨ b = nan := by
  cases a <;> cases b <;> simp [HSub.hSub, Sub.sub, Mv.lift₂]

theorem mv_add_nan (a b : Mv R) : a + b = nan ↔ a = nan ∨ b = nan := by
  cases a <;> cases b <;> simp [HAdd.hAdd, Add.add, Mv.lift₂]

theorem mv_sum_nan (x : List (Mv R)) : x.sum = nan ↔ nan ∈ x := by
  induction x with
  | nil => simp [show (0 : Mv R) = num 0 from rfl]
  | cons a x ih => rw [List.sum_cons, mv_add_nan, ih, List.mem_cons, eq_comm]

theorem mv_div_num (a : Mv R) (c : R) : a / num c = nan ↔ a = nan := by
  cases a <;> simp [HDiv.hDiv, Div.div, Mv.lift₂]

theorem mvInck_tab (k n : ℕ) (hk : 0 < k) (x : ℕ → Mv R) :
    increments1 (k : ℤ) (tab n x) = .ok (tab n fun t => if t < k then 0 else x t - x (t - k)) := by
  unfold increments1
  simp only [slcFrom_tab, slcTo_neg_tab n k hk, tab_length, if_true, vsub_tab, zeros_eq]
  rw [pyClip_nat, setSlc_tab _ _ _ _ _ _ le_rfl (by omega) (by omega)]
  congr 1
  apply tab_congr
  intro t ht
  by_cases h : t < k
  · rw [if_neg (by omega), if_pos h]
  · rw [if_pos (by omega), if_neg h]
    congr 2 <;> omega

/-- The `j`-fold increments. -/
def mvInck (k : ℕ) (x : ℕ → Mv R) : ℕ → ℕ → Mv R
  | 0 => x
  | j + 1 => fun t => if t < k then 0 else mvInck k x j t - mvInck k x j (t - k)

theorem mvInck_nan (k : ℕ) (x : ℕ → Mv R) : ∀ j t, mvInck k x (j + 1) t = nan ↔ k ≤ t ∧ ∃ e ≤ j + 1, e * k ≤ t ∧ x (t - e * k) = nan := by
  intro j
  induction j with
  | zero =>
    intro t
    simp only [mvInck]
    by_cases h : t < k
    · rw [if_pos h]
      exact ⟨fun h' => (nomatch h'), fun h' => by omega⟩
    · rw [if_neg h, mv_sub_nan]
      constructor
      · rintro (h1 | h1)
        · exact ⟨by omega, 0, by omega, by omega, by simpa using h1⟩
        · exact ⟨by omega, 1, by omega, by omega, by simpa using h1⟩
      · rintro ⟨_, e, he, h2, h3⟩
        have : e = 0 ∨ e = 1 := by omega
        rcases this with rfl | rfl
        · left; simpa using h3
        · right; simpa using h3
  | succ j ih =>
    intro t
    rw [mvInck]
    beta_reduce
    by_cases h : t < k
    · rw [if_pos h]
      exact ⟨fun h' => (nomatch h'), fun h' => by omega⟩
    · rw [if_neg h, mv_sub_nan, ih, ih]
      constructor
      · rintro (⟨_, e, he, h2, h3⟩ | ⟨_, e, he, h2, h3⟩)
        · exact ⟨by omega, e, by omega, h2, h3⟩
        · refine ⟨by omega, e + 1, by omega, ?_, ?_⟩
          · rw [Nat.add_mul]; omega
          · rw [Nat.add_mul, one_mul, Nat.add_comm, ← Nat.sub_sub]; exact h3
      · rintro ⟨_, e, he, h2, h3⟩
        by_cases he' : e ≤ j + 1
        · exact .inl ⟨by omega, e, he', h2, h3⟩
        · right
          obtain ⟨e, rfl⟩ : ∃ e', e = e' + 1 := ⟨e - 1, by omega⟩
          rw [Nat.add_mul, one_mul] at h2 h3
          have hk1 : k ≤ e * k := Nat.le_mul_of_pos_left k (by omega)
          refine ⟨by omega, e, by omega, by omega, ?_⟩
          rw [Nat.sub_sub, Nat.add_comm k]
          exact h3

theorem incLoop_tab (k n : ℕ) (hk : 0 < k) (p : INC R) (hp : p.shift = .int k) (hz : p.zeroPadding = true) (x0 : List (Mv R)) (x : ℕ → Mv R) :
    ∀ j i, p.loop n x0 j (tab n (mvInck k x i)) = .ok (tab n (mvInck k x (i + j)))
  | 0, i => rfl
  | j + 1, i => by
    unfold INC.loop
    rw [hp, hz]
    simp only [Shift.eval, if_true]
    rw [mvInck_tab k n hk, ok_bind, pure_bind]
    have := incLoop_tab k n hk p hp hz x0 x j (i + 1)
    rw [show i + (j + 1) = i + 1 + j by omega]
    exact this

/-- **C171.** `INC(shift=k, depth=D)`: the entry at time `t` is missing if and only if `t ≥ k` and one of the values at `t`, `t-k`, …, `t-D·k` (as far
as there are such times) is missing. -/
theorem C171_inc [NpMath R] {m d n k D : ℕ} (hk : 0 < k) (hD : 0 < D) (C : Data (Mv R)) {X : Data (Mv R)} (hX : HasShape X m d n) :
    ∃ Z, (MPrep.inc ⟨.int k, D, true⟩).transformC C X = .ok Z ∧ HasShape Z m d n ∧ ∀ i < m, ∀ j < d, ∀ t < n,
      (at3 Z i j t = nan ↔ k ≤ t ∧ ∃ e ≤ D, e * k ≤ t ∧ at3 X i j (t - e * k) = nan) := by
  obtain ⟨D, rfl⟩ : ∃ D', D = D' + 1 := ⟨D - 1, by omega⟩
  refine ⟨tab3 m d n fun i j t => mvInck k (at3 X i j) (D + 1) t, ?_, hasShape_tab3 _, fun i hi j hj t ht => ?_⟩
  · simp only [MPrep.transformC]
    conv_lhs => rw [hX.eq_tab3]
    refine mapM_ok_tab fun i hi => mapM_ok_tab fun j hj => ?_
    have hm : 0 < m := by omega
    have hd : 0 < d := by omega
    have hs : shape2 (tab3 m d n (at3 X)) = n := by
      unfold shape2 tab3 tab2
      rw [getD_tab hm, getD_tab hd, tab_length]
    rw [hs]
    have := incLoop_tab k n hk ⟨.int k, D + 1, true⟩ rfl rfl (tab n (at3 X i j)) (at3 X i j) (D + 1) 0
    rwa [Nat.zero_add] at this
  · unfold at3 tab3 tab2
    rw [getD_tab hi, getD_tab hj, getD_tab ht]
    exact mvInck_nan k _ D t

/-! ## The moving average -/

theorem mvMav_aux (w n : ℕ) (hw : 0 < w) (x : ℕ → Mv R) : ∀ c ≤ n + 1 - w,
    (List.range' w c).foldl (fun res (k : ℕ) => res.set (k - 1) ((slc (tab n x) ((k : ℤ) - w) k).sum / (w : Mv R))) (tab n fun _ => 0) =
      tab n fun t => if w ≤ t + 1 ∧ t + 1 < w + c then (tab w fun k => x (t + 1 - w + k)).sum / (w : Mv R) else 0 := by
  intro c hc
  induction c with
  | zero =>
    rw [List.range'_zero, List.foldl_nil]
    apply tab_congr
    intro t _
    rw [if_neg (by omega)]
  | succ c ih =>
    rw [List.range'_concat, List.foldl_append, ih (by omega)]
    simp only [List.foldl_cons, List.foldl_nil, one_mul, set_tab]
    have h1 : slc (tab n x) (((w + c : ℕ) : ℤ) - w) ((w + c : ℕ) : ℤ) = tab w fun t => x (c + t) := by
      have := slc_tab n c (w + c) x
      rw [show (((w + c : ℕ) : ℤ) - w) = (c : ℤ) by push_cast; ring, this]
      rw [show min (w + c) n - c = w by omega]
    rw [h1]
    apply tab_congr
    intro t ht
    by_cases h : t = w + c - 1
    · subst h
      rw [if_pos rfl, if_pos (by omega)]
      congr 2
      apply tab_congr
      intro k _
      congr 1; omega
    · rw [if_neg h]
      by_cases h2 : w ≤ t + 1 ∧ t + 1 < w + c
      · rw [if_pos h2, if_pos (by omega)]
      · rw [if_neg h2, if_neg (by omega)]

/-- **C171.** A fitted `MAV` with the window length `w`: the entry at time `t` is missing if and only if `t ≥ w-1` and one of the last `w` values is
missing. -/
theorem C171_mav [NpMath R] {m d n w : ℕ} (hw : 0 < w) (given : IntOrFloat R) (C : Data (Mv R)) {X : Data (Mv R)} (hX : HasShape X m d n) :
    ∃ Z, (MPrep.mav ⟨given, some w⟩).transformC C X = .ok Z ∧ HasShape Z m d n ∧ ∀ i < m, ∀ j < d, ∀ t < n,
      (at3 Z i j t = nan ↔ w ≤ t + 1 ∧ ∃ s ≤ t, t < s + w ∧ at3 X i j s = nan) := by
  refine ⟨tab3 m d n fun i j t => if w ≤ t + 1 then (tab w fun k => at3 X i j (t + 1 - w + k)).sum / (w : Mv R) else 0, ?_, hasShape_tab3 _,
    fun i hi j hj t ht => ?_⟩
  · simp only [MPrep.transformC]
    conv_lhs => rw [hX.eq_tab3]
    unfold mapRows tab3 tab2
    rw [map_tab]
    congr 1
    refine tab_congr fun i _ => ?_
    rw [map_tab]
    refine tab_congr fun j _ => ?_
    unfold MAV.row
    rw [tab_length, zeros_eq, mvMav_aux w n hw _ _ le_rfl]
    refine tab_congr fun t _ => ?_
    beta_reduce
    by_cases h : w ≤ t + 1
    · rw [if_pos h, if_pos (by omega)]
    · rw [if_neg h, if_neg (by omega)]
  · unfold at3 tab3 tab2
    rw [getD_tab hi, getD_tab hj, getD_tab ht]
    beta_reduce
    by_cases h : w ≤ t + 1
    · rw [if_pos h, show ((w : ℕ) : Mv R) = num ((w : ℕ) : R) from rfl, mv_div_num, mv_sum_nan, mem_tab]
      constructor
      · rintro ⟨k, hk, he⟩
        exact ⟨h, t + 1 - w + k, by omega, by omega, he⟩
      · rintro ⟨_, s, h1, h2, h3⟩
        refine ⟨s + w - (t + 1), by omega, ?_⟩
        rw [show t + 1 - w + (s + w - (t + 1)) = s by omega]
        exact h3
    · rw [if_neg h]
      exact ⟨fun h' => (nomatch h'), fun h' => absurd h'.1 h⟩

/-! ## What one missing value does to a fit -/

theorem mv_mean_nan {x : List (Mv R)} (h : nan ∈ x) : Mv.mean x = nan := by
  unfold Mv.mean
  rw [mv_div_num, mv_sum_nan]; exact h

/-- **C171 (counterexample, general).** `STD(separately=False)` fitted to data with one missing value returns only `nan`, whatever data it transforms. -/
theorem C171_std_fit_counterexample [NpMath R] (g : Rng R) (p : MSTD R) (hp : p.separately = false) {X : Data (Mv R)} (hX : nan ∈ X.flatten.flatten)
    (C Y : Data (Mv R)) :
    ((MPrep.std p).fit g X >>= fun q => q.transformC C Y) = .ok (mapEntries (fun _ => nan) Y) := by
  simp only [MPrep.fit, ok_bind, MPrep.transformC, MSTD.fit, hp, Bool.false_eq_true, if_false, MSTD.transform]
  congr 1
  rw [mv_mean_nan hX]
  refine congrArg (fun f => mapEntries f Y) (funext fun v => ?_)
  cases v <;> rfl

/-- **C171 (counterexample, general).** `QTC` fitted to data with one missing value returns every dataset unchanged. -/
theorem C171_qtc_fit_counterexample [NpMath R] (g : Rng R) (p : MQTC R) (hp : 0 ≤ p.q ∧ p.q ≤ 1) {X : Data (Mv R)} (hX : nan ∈ X.flatten.flatten)
    (C Y : Data (Mv R)) : ((MPrep.qtc p).fit g X >>= fun q => q.transformC C Y) = .ok Y := by
  have hid : ∀ f : Mv R → Mv R, (∀ v, f v = v) → mapEntries f Y = Y := by
    intro f hf
    unfold mapEntries mapRows
    rw [show f = id from funext hf]
    simp
  simp only [MPrep.fit, MQTC.fit, Mv.quantile, if_pos hX, if_pos hp, ok_bind, pure_bind, MPrep.transformC, MQTC.transform]
  cases p.lower with
  | true =>
    simp only [if_true]
    congr 1
    refine hid _ fun v => ?_
    cases v <;> rfl
  | false =>
    simp only [Bool.false_eq_true, if_false]
    congr 1
    refine hid _ fun v => ?_
    cases v <;> rfl

/-! ## `WIN` -/

theorem winRow_zero (x : List (Mv R)) : WIN.row 0 0 x = .ok (Fruits.zeros x.length) := by
  have hx : x = tab x.length fun t => x.getD t 0 := tab_of_list x 0
  unfold WIN.row
  rw [show ((0 : ℕ) : ℤ) - 1 = -1 from rfl, show (((0 : ℕ) : ℤ)) = 0 from rfl]
  have h0 : pyClip x.length 0 = 0 := by simp [pyClip]
  have hs : slc x (-1) 0 = [] := by unfold slc; rw [h0]; simp
  rw [hs, h0]
  unfold setSlc
  rw [if_pos (by simp), Nat.max_zero, List.append_nil, List.take_append_drop]

theorem mnormSum_tab {m d n : ℕ} {C : Data (Mv R)} {D : Data R} (h : CompletesData m d n C D) (hd : 0 < d) (nm : Norm) :
    Mv.normSum nm C = .ok (tab m fun i => tab n fun t => orNan (0 < t ∧ ∃ s ≤ t, at3 C i 0 s = Mv.nan) (variation nm (at3 D i 0) t)) := by
  unfold Mv.normSum
  have hC : C = tab m fun i => C.getD i [] := by
    have := tab_of_list C []
    rw [h.shape.1] at this
    exact this
  conv_lhs => rw [hC]
  refine mapM_ok_tab fun i hi => ?_
  rw [h.first hd hi, mvInc_orNan, ok_bind, mnormSum_row]
  rfl

/-- **C171 (counterexample, general).** The window filter `WIN` gives a series whose first dimension has a missing value only zeros, in all its
dimensions: neither the true values nor `nan`. -/
theorem C171_win_counterexample [NpMath R] {m d n : ℕ} {X : Data (Mv R)} {Y : Data R} (h : CompletesData m d n X Y) (hd : 0 < d) (hn : 2 ≤ n) (p : WIN R)
    {i : ℕ} (hi : i < m) (hmiss : ∃ t, at3 X i 0 t = nan) {Z : Data (Mv R)} (hZ : (MPrep.win p).transformC X X = .ok Z) :
    ∀ j t, at3 Z i j t = 0 := by
  have hc : ∀ q : R, Mv.coqs X q = .ok (tab m fun i => open Classical in
      if 2 ≤ n ∧ ∃ t, at3 X i 0 t = nan then 0 else coqSpec .L2 (at3 Y i 0) n q) := by
    intro q
    unfold Mv.coqs
    rw [mnormSum_tab h hd, ok_bind]
    show Except.ok _ = _
    rw [map_tab]
    congr 1
    refine tab_congr fun i hi => ?_
    exact mcoquantile_row n (by omega) .L2 _ (fun t ht => h.lt hi hd ht) _ q
  simp only [MPrep.transformC, winTransform, hc, ok_bind] at hZ
  obtain ⟨hl, hrow⟩ := mapM_getD hZ 0 []
  have hl' : X.length = m := h.shape.1
  have hrow := hrow i (by rw [List.length_range]; omega)
  rw [List.getD_eq_getElem?_getD (l := List.range X.length), List.getElem?_range (by omega), Option.getD_some, tab_getElem?, tab_getElem?, if_pos hi, if_pos hi] at hrow
  simp only [if_pos (And.intro hn hmiss)] at hrow
  have hz : (X.getD i []).mapM (WIN.row (A := Mv R) 0 0) = .ok ((X.getD i []).map fun x => Fruits.zeros x.length) :=
    mapM_ok_map fun x _ => winRow_zero x
  rw [hz] at hrow
  injection hrow with hrow
  intro j t
  unfold at3
  rw [← hrow]
  have hg : ∀ (s : Series (Mv R)), ((s.map fun x => Fruits.zeros x.length).getD j []).getD t (0 : Mv R) = 0 := by
    intro s
    rw [List.getD_eq_getElem?_getD (l := s.map _), List.getElem?_map]
    rcases s[j]? with _ | x
    · rfl
    · simp only [Option.map_some, Option.getD_some, Fruits.zeros, List.getD_eq_getElem?_getD, List.getElem?_replicate]
      split <;> rfl
  exact hg _

end Fruits
