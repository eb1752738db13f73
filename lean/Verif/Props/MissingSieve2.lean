import Verif.Props.MissingSieve1
import Verif.Props.Missing1

/-! # C170: missing values and sieves, part 2: the features of arrays with missing values -/

namespace Fruits
set_option linter.unusedSectionVars false
open Finset Mv

variable {R : Type} [Field R] [LinearOrder R] [IsStrictOrderedRing R] [FloorRing R]

/-! ## Specification -/

/-- The value of series `i` at time `t` is missing. -/
def MissingAt (X : List (List (Mv R))) (i t : ℕ) : Prop := at2 X i t = Mv.nan

/-- `Y` is the array `X` (`m` series, `n` time steps) with arbitrary numbers for the missing values. -/
structure CompletesArr (m n : ℕ) (X : List (List (Mv R))) (Y : List (List R)) : Prop where
  shape : HasShape2 X m n
  shapeY : HasShape2 Y m n
  same : ∀ i t x, at2 X i t = Mv.num x → at2 Y i t = x

/-- `D` is the dataset `C` with arbitrary numbers for the missing values. -/
structure CompletesData (m d n : ℕ) (C : Data (Mv R)) (D : Data R) : Prop where
  shape : HasShape C m d n
  shapeD : HasShape D m d n
  same : ∀ i j t x, at3 C i j t = Mv.num x → at3 D i j t = x

/-- The time index a cut stands for. An integer: as without missing values. A float: the coquantile of the first dimension of the series, but 0 if a
value of the first dimension is missing (and there is more than one time step). -/
noncomputable def mcutPos (C : Data (Mv R)) (D : Data R) (nm : Norm) (n i : ℕ) : Cut R → ℕ
  | .int k => cutPos D nm n i (.int k)
  | .float f => open Classical in if 2 ≤ n ∧ ∃ t, at3 C i 0 t = Mv.nan then 0 else cutPos D nm n i (.float f)

/-- The ends of the segments of series `i`: zero and the cut positions in increasing order. -/
noncomputable def mbounds (C : Data (Mv R)) (D : Data R) (p : MSeg R) (n i : ℕ) : List ℕ :=
  (0 :: p.cut.map (mcutPos C D p.norm n i)).insertionSort (· ≤ ·)

open Classical in
/-- The time indices of segment `j` (ends `b`) at which the value is not missing and lies in the band `(lo, hi]`. -/
noncomputable def khits (b : List ℕ) (j : ℕ) (lo hi : QVal R) (M : ℕ → Prop) (y : ℕ → R) : Finset ℕ :=
  {t ∈ Finset.Ico (b.getD j 0) (b.getD (j + 1) 0) | ¬ M t ∧ InBand lo hi (y t)}

/-- The view of an increment sieve is missing at time `t`. Increments of depth `k`: one of the `k + 1` values up to `t` is missing (the first increment
is always 0). Cumulative sums: one of the values up to `t` is missing. -/
def ViewMissing (inc : ℤ) (M : ℕ → Prop) (t : ℕ) : Prop :=
  if 0 < inc then 0 < t ∧ ∃ s ≤ t, t ≤ s + inc.toNat ∧ M s else if inc < 0 then ∃ s ≤ t, M s else M t

/-! ## Proof -/

theorem CompletesArr.row {m n : ℕ} {X : List (List (Mv R))} {Y : List (List R)} (h : CompletesArr m n X Y) {i : ℕ} (hi : i < m) :
    X.getD i [] = tab n fun t => orNan (MissingAt X i t) (at2 Y i t) := by
  rw [h.shape.row hi]
  exact tab_congr fun t _ => eq_mk _ _ fun x hx => h.same i t x hx

/-- The list `0 ::` positions, sorted. -/
theorem mbounds_length (C : Data (Mv R)) (D : Data R) (p : MSeg R) (n i : ℕ) : (mbounds C D p n i).length = p.cut.length + 1 := by
  unfold mbounds
  rw [List.length_insertionSort]; simp

theorem mcutPos_le (C : Data (Mv R)) (D : Data R) (nm : Norm) (n i : ℕ) (c : Cut R) (hc : c.InRange n) : mcutPos C D nm n i c ≤ n := by
  cases c with
  | int k => exact cutPos_le D nm n i _ hc
  | float f =>
    unfold mcutPos
    dsimp only
    split
    · exact Nat.zero_le _
    · exact cutPos_le D nm n i _ hc

theorem mbounds_le (C : Data (Mv R)) (D : Data R) (p : MSeg R) (n i : ℕ) (hp : ∀ c ∈ p.cut, c.InRange n) (j : ℕ) :
    (mbounds C D p n i).getD j 0 ≤ n := by
  rcases Nat.lt_or_ge j (mbounds C D p n i).length with h | h
  · have hm : (mbounds C D p n i).getD j 0 ∈ 0 :: p.cut.map (mcutPos C D p.norm n i) :=
      (List.perm_insertionSort _ _).subset (getD_mem_lt h)
    rcases List.mem_cons.1 hm with h0 | hm
    · rw [h0]; exact Nat.zero_le _
    · obtain ⟨c, hc, he⟩ := List.mem_map.1 hm
      rw [← he]; exact mcutPos_le _ _ _ _ _ _ (hp c hc)
  · rw [List.getD_eq_getElem?_getD, List.getElem?_eq_none h]; exact Nat.zero_le _

theorem mbounds_mono (C : Data (Mv R)) (D : Data R) (p : MSeg R) (n i : ℕ) {j : ℕ} (hj : j < p.cut.length) :
    (mbounds C D p n i).getD j 0 ≤ (mbounds C D p n i).getD (j + 1) 0 := by
  have hl := mbounds_length C D p n i
  rw [getD_getElem (by omega), getD_getElem (by omega)]
  exact List.pairwise_iff_getElem.1 (List.pairwise_insertionSort (· ≤ ·) (0 :: p.cut.map (mcutPos C D p.norm n i))) j (j + 1) (by
    have := hl; unfold mbounds at this; omega) (by have := hl; unfold mbounds at this; omega) (by omega)

theorem mvInc_tab (n : ℕ) (x : ℕ → Mv R) : increments1 1 (tab n x) = .ok (tab n fun t => if t = 0 then 0 else x t - x (t - 1)) := by
  unfold increments1
  rw [show (1 : ℤ) = ((1 : ℕ) : ℤ) from rfl]
  simp only [slcFrom_tab, slcTo_neg_tab n 1 (by omega), tab_length, if_true, vsub_tab, zeros_eq]
  rw [pyClip_nat, setSlc_tab _ _ _ _ _ _ le_rfl (by omega) (by omega)]
  congr 1
  apply tab_congr
  intro t ht
  by_cases h : t = 0
  · subst h
    rw [if_neg (by omega), if_pos rfl]
  · rw [if_pos (by omega), if_neg h]
    congr 2 <;> omega

theorem mvInc_orNan (n : ℕ) (M : ℕ → Prop) (y : ℕ → R) : increments1 1 (tab n fun t => orNan (M t) (y t)) =
    .ok (tab n fun t => orNan (0 < t ∧ (M t ∨ M (t - 1))) (incOf y t)) := by
  rw [mvInc_tab]
  congr 1
  refine tab_congr fun t _ => ?_
  unfold incOf
  by_cases h : t = 0
  · rw [if_pos h, if_pos h, zero_mk]
    exact mk_congr (by simp [h]) rfl
  · rw [if_neg h, if_neg h, sub_mk]
    exact mk_congr (by simp only [show 0 < t by omega, true_and]) rfl

theorem mvCumsum_orNan (n : ℕ) (M : ℕ → Prop) (y : ℕ → R) : cumsum (tab n fun t => orNan (M t) (y t)) =
    tab n fun t => orNan (∃ s ≤ t, M s) (sumOf y t) := by
  obtain ⟨v, hx, hy⟩ := Sim.cumsum (x := tab n fun t => orNan (M t) (y t)) (y := tab n y) ⟨y, rfl, rfl⟩
  rw [hx]
  rw [cumsum_tab] at hy
  refine tab_congr fun t ht => mk_congr Iff.rfl ?_
  have := congrArg (fun l => l.getD t 0) hy
  rw [getD_tab ht, getD_tab ht] at this
  exact this.symm

theorem mnormSum_row (nm : Norm) (n : ℕ) (M : ℕ → Prop) (y : ℕ → R) :
    cumsum ((tab n fun t => orNan (0 < t ∧ (M t ∨ M (t - 1))) (incOf y t)).map (Mv.lift nm.val)) =
      tab n fun t => orNan (0 < t ∧ ∃ s ≤ t, M s) (variation nm y t) := by
  rw [map_tab, tab_congr (g := fun t => orNan (0 < t ∧ (M t ∨ M (t - 1))) (nm.val (incOf y t))), mvCumsum_orNan]
  · refine tab_congr fun t ht => mk_congr ?_ ?_
    · constructor
      · rintro ⟨s, hs, h0, h | h⟩
        · exact ⟨by omega, s, hs, h⟩
        · exact ⟨by omega, s - 1, by omega, h⟩
      · rintro ⟨h0, s, hs, h⟩
        by_cases hz : s = 0
        · subst hz; exact ⟨1, by omega, by omega, Or.inr h⟩
        · exact ⟨s, hs, by omega, Or.inl h⟩
    · have h := cumsum_norm nm n y
      rw [map_tab, cumsum_tab] at h
      have := congrArg (fun l => l.getD t 0) h
      rw [getD_tab ht, getD_tab ht] at this
      rw [← this]
      unfold sumOf incOf
      refine Finset.sum_congr rfl fun s _ => ?_
      dsimp only
      by_cases hs : s = 0
      · rw [if_pos hs, if_pos (by omega)]
      · rw [if_neg hs, if_neg (by omega)]
  · intro t _
    by_cases h : 0 < t ∧ (M t ∨ M (t - 1))
    · rw [mk_true h, mk_true h]; rfl
    · rw [mk_false h, mk_false h]; rfl

theorem mcoquantile_row (n : ℕ) (hn : 0 < n) (nm : Norm) (M : ℕ → Prop) (hM : ∀ t, M t → t < n) (y : ℕ → R) (f : R) :
    Mv.coquantile1 f (tab n fun t => orNan (0 < t ∧ ∃ s ≤ t, M s) (variation nm y t)) =
      open Classical in if 2 ≤ n ∧ ∃ t, M t then 0 else coqSpec nm y n f := by
  classical
  unfold Mv.coquantile1
  rw [tab_length, getD_tab (by omega)]
  by_cases h : 2 ≤ n ∧ ∃ t, M t
  · rw [if_pos h]
    obtain ⟨h2, s, hs⟩ := h
    have : (0 < n - 1 ∧ ∃ s ≤ n - 1, M s) := ⟨by omega, s, by have := hM s hs; omega, hs⟩
    rw [mk_true this, List.length_eq_zero_iff, List.filter_eq_nil_iff]
    intro a _
    cases a <;> simp [HMul.hMul, Mul.mul, Mv.lift₂, Mv.le]
  · rw [if_neg h]
    have hk : ∀ t < n, ¬ (0 < t ∧ ∃ s ≤ t, M s) := fun t ht ⟨h0, s, _, hs⟩ => h ⟨by omega, s, hs⟩
    rw [tab_congr (g := fun t => Mv.num (variation nm y t)) fun t ht => mk_false (hk t ht) _, mk_false (hk _ (by omega))]
    unfold coqSpec
    rw [show (tab n fun t => Mv.num (variation nm y t)) = (List.range n).map fun t => Mv.num (variation nm y t) from rfl, List.filter_map,
      List.length_map, ← List.toFinset_card_of_nodup (List.nodup_range.filter _), List.toFinset_filter, List.toFinset_range]
    congr 1
    refine Finset.filter_congr fun t _ => ?_
    change decide (variation nm y t ≤ f * variation nm y (n - 1)) = true ↔ _
    rw [decide_eq_true_iff]

theorem CompletesData.first {m d n : ℕ} {C : Data (Mv R)} {D : Data R} (h : CompletesData m d n C D) (hd : 0 < d) {i : ℕ} (hi : i < m) :
    (C.getD i []).getD 0 [] = tab n fun t => orNan (at3 C i 0 t = Mv.nan) (at3 D i 0 t) := by
  conv_lhs => rw [h.shape.eq_tab3]
  rw [tab3, getD_tab hi, tab2, getD_tab hd]
  exact tab_congr fun t _ => eq_mk _ _ fun x hx => h.same i 0 t x hx

theorem CompletesData.lt {m d n : ℕ} {C : Data (Mv R)} {D : Data R} (h : CompletesData m d n C D) {i t : ℕ} (hi : i < m) (hd : 0 < d)
    (ht : at3 C i 0 t = Mv.nan) : t < n := by
  by_contra hn
  rw [h.shape.eq_tab3, at3, tab3, getD_tab hi, tab2, getD_tab hd] at ht
  simp [List.getD, List.getElem?_eq_none (show (tab n fun t => at3 C i 0 t).length ≤ t by rw [tab_length]; omega)] at ht

theorem mcutColumn_eq {m d n : ℕ} {C : Data (Mv R)} {D : Data R} (h : CompletesData m d n C D) (hd : 0 < d) (hn : 0 < n) (p : MSeg R) (c : Cut R)
    (hc : c.InRange n) : p.cutColumn C m n c = .ok (tab m fun i => ((mcutPos C D p.norm n i c : ℕ) : ℤ)) := by
  cases c with
  | int k =>
    simp only [Mv.MSeg.cutColumn, mcutPos, cutPos, Cut.InRange] at hc ⊢
    rw [replicate_eq_tab]
    congr 1
    apply tab_congr
    intro i _
    split <;> omega
  | float f =>
    simp only [Mv.MSeg.cutColumn, mcutPos]
    have hs : Mv.normSum p.norm C = .ok (tab m fun i => tab n fun t => orNan (0 < t ∧ ∃ s ≤ t, at3 C i 0 s = Mv.nan) (variation p.norm (at3 D i 0) t)) := by
      unfold Mv.normSum
      have hC : C = tab m fun i => C.getD i [] := by
        have := tab_of_list C []
        rw [h.shape.1] at this
        exact this
      conv_lhs => rw [hC]
      refine mapM_ok_tab fun i hi => ?_
      rw [h.first hd hi, mvInc_orNan, ok_bind, mnormSum_row]
      rfl
    rw [hs, ok_bind, if_pos (by simp), map_tab]
    congr 1
    refine tab_congr fun i hi => ?_
    rw [mcoquantile_row n hn p.norm _ (fun t ht => h.lt hi hd ht)]
    rfl

theorem mcuts_eq {m d n : ℕ} {C : Data (Mv R)} {D : Data R} (h : CompletesData m d n C D) (hd : 0 < d) (hn : 0 < n) (p : MSeg R)
    (hp : ∀ c ∈ p.cut, c.InRange n) : p.cuts C m n = .ok (tab m fun i => (mbounds C D p n i).map fun k : ℕ => (k : ℤ)) := by
  unfold Mv.MSeg.cuts
  have h : p.cut.mapM (p.cutColumn C m n) = .ok (p.cut.map fun c => tab m fun i => ((mcutPos C D p.norm n i c : ℕ) : ℤ)) :=
    mapM_ok_map fun c hc => mcutColumn_eq h hd hn p c (hp c hc)
  rw [h, ok_bind]
  show Except.ok _ = _
  congr 1
  apply tab_congr
  intro i hi
  unfold mbounds
  rw [List.map_insertionSort (r := (· ≤ ·)) (s := (· ≤ ·)) (f := fun k : ℕ => (k : ℤ)) (hl := by
    intro a _ b _; exact Int.ofNat_le.symm)]
  congr 1
  rw [List.map_cons, List.map_map, List.map_map]
  congr 1
  apply List.map_congr_left
  intro c _
  simp only [Function.comp]
  rw [getD_tab hi]

theorem mbackend_exists (op : MOp R) (qs : List (QVal R)) (X : List (List (Mv R))) (b : ℕ → List ℕ) (J : ℕ) {m n : ℕ} (hX : HasShape2 X m n)
    (hb : ∀ i < m, (b i).length = J + 1) (hq : qs ≠ []) (P : ℕ → ℕ → ℕ → Mv R → Prop)
    (hop : ∀ i < m, ∀ j < J, ∀ k < qs.length - 1, ∃ v, op (X.getD i []) ((b i).getD j 0 : ℕ) ((b i).getD (j + 1) 0 : ℕ)
      (.num (qs.getD k ⊥)) (.num (qs.getD (k + 1) ⊥)) = .ok v ∧ P i j k v) :
    ∃ Z, Mv.backend op (tab m fun i => (b i).map fun k : ℕ => (k : ℤ)) (qs.map Mv.num) X = .ok Z ∧ HasShape2 Z m (J * (qs.length - 1)) ∧
      ∀ i < m, ∀ j < J, ∀ k < qs.length - 1, P i j k (at2 Z i (j * (qs.length - 1) + k)) := by
  classical
  choose! v hv using hop
  refine ⟨tab m fun i => tab (J * (qs.length - 1)) fun p => v i (p / (qs.length - 1)) (p % (qs.length - 1)), ?_, ?_, ?_⟩
  · unfold Mv.backend
    rw [hX.1]
    refine mapM_ok_map fun i hi => ?_
    replace hi := List.mem_range.1 hi
    rw [getD_tab hi]
    unfold Mv.backendRow
    rw [if_neg (by simp only [List.map_eq_nil_iff]; tauto)]
    have hl : ((b i).map fun k : ℕ => (k : ℤ)).length - 1 = J := by rw [List.length_map, hb i hi]; rfl
    rw [hl, List.length_map]
    refine fillGrid_ok fun j hj k hk => ?_
    have h1 : ∀ n, (qs.map Mv.num).getD n (.num ⊥) = Mv.num (qs.getD n ⊥) := fun n => getD_map' Mv.num qs n ⊥
    rw [getD_map_int, getD_map_int, h1, h1]
    exact (hv i hi j hj k hk).1
  · refine ⟨by simp, fun r hr => ?_⟩
    obtain ⟨i, _, rfl⟩ := mem_tab.1 hr
    simp
  · intro i hi j hj k hk
    unfold at2
    rw [getD_tab hi, getD_tab (idx_lt hj hk), (div_of_lt hk).1, (div_of_lt hk).2]
    exact (hv i hi j hj k hk).2

theorem inBand_nan (lo hi : Mv (QVal R)) : Mv.inBand lo hi Mv.nan = false := by
  unfold Mv.inBand; cases lo <;> rfl

open Classical in
theorem inBand_orNan (lo hi : QVal R) (b : Prop) (x : R) : Mv.inBand (.num lo) (.num hi) (orNan b x) = decide (¬ b ∧ InBand lo hi x) := by
  by_cases h : b
  · rw [mk_true h, inBand_nan]; simp [h]
  · rw [mk_false h, inBand_num]
    rw [decide_eq_decide]
    simp only [h, not_false_eq_true, true_and]; rfl

open Classical in
theorem mband_slc (n a b : ℕ) (hb : b ≤ n) (lo hi : QVal R) (M : ℕ → Prop) (y : ℕ → R) :
    Mv.band (.num lo) (.num hi) (slc (tab n fun t => orNan (M t) (y t)) a b) =
      Mv.nums (((List.range' a (b - a)).filter fun t => decide (¬ M t ∧ InBand lo hi (y t))).map y) := by
  rw [slc_tab, min_eq_left hb]
  unfold Mv.band Mv.nums
  have : tab (b - a) (fun t => orNan (M (a + t)) (y (a + t))) = (List.range' a (b - a)).map fun t => orNan (M t) (y t) := by
    rw [range'_eq_tab, map_tab]
  rw [this, List.filter_map, List.map_map]
  have hf : (List.range' a (b - a)).filter (Mv.inBand (.num lo) (.num hi) ∘ fun t => orNan (M t) (y t)) =
      (List.range' a (b - a)).filter fun t => decide (¬ M t ∧ InBand lo hi (y t)) :=
    List.filter_congr fun t _ => inBand_orNan lo hi (M t) (y t)
  rw [hf]
  refine List.map_congr_left fun t ht => ?_
  have := (List.mem_filter.1 ht).2
  rw [decide_eq_true_iff] at this
  exact mk_false this.1 _

open Classical in
theorem khits_list (b : List ℕ) (j : ℕ) (lo hi : QVal R) (M : ℕ → Prop) (y : ℕ → R) :
    ((List.range' (b.getD j 0) (b.getD (j + 1) 0 - b.getD j 0)).filter fun t => decide (¬ M t ∧ InBand lo hi (y t))).toFinset
    = khits b j lo hi M y := by
  rw [List.toFinset_filter, range'_toFinset]
  unfold khits
  ext t
  simp only [Finset.mem_filter, Finset.mem_Ico, decide_eq_true_eq]
  constructor
  · rintro ⟨h1, h2⟩; exact ⟨by omega, h2⟩
  · rintro ⟨h1, h2⟩; exact ⟨by omega, h2⟩

open Classical in
theorem khits_sum (b : List ℕ) (j : ℕ) (lo hi : QVal R) (M : ℕ → Prop) (y g : ℕ → R) :
    (((List.range' (b.getD j 0) (b.getD (j + 1) 0 - b.getD j 0)).filter fun t => decide (¬ M t ∧ InBand lo hi (y t))).map g).sum =
      ∑ t ∈ khits b j lo hi M y, g t := by
  rw [← khits_list, List.sum_toFinset _ (hits_nodup _ _ _)]

open Classical in
theorem khits_card (b : List ℕ) (j : ℕ) (lo hi : QVal R) (M : ℕ → Prop) (y : ℕ → R) :
    ((List.range' (b.getD j 0) (b.getD (j + 1) 0 - b.getD j 0)).filter fun t => decide (¬ M t ∧ InBand lo hi (y t))).length =
      (khits b j lo hi M y).card := by
  rw [← khits_list, List.toFinset_card_of_nodup (hits_nodup _ _ _)]

end Fruits
