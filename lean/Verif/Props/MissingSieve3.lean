import Verif.Props.MissingSieve2
import Verif.Props.Sieve3

/-! # C170: missing values and sieves, part 3: the features -/

namespace Fruits
set_option linter.unusedSectionVars false
open Finset Mv

variable {R : Type} [Field R] [LinearOrder R] [IsStrictOrderedRing R] [FloorRing R]

/-! ## Proof: views -/

/-- The missing values of the increments of depth `k`. -/
def incMissing (k : ℕ) (M : ℕ → Prop) (t : ℕ) : Prop := if k = 0 then M t else 0 < t ∧ ∃ s ≤ t, t ≤ s + k ∧ M s

theorem incMissing_succ (k : ℕ) (M : ℕ → Prop) (t : ℕ) : incMissing k (fun t => 0 < t ∧ (M t ∨ M (t - 1))) t ↔ incMissing (k + 1) M t := by
  unfold incMissing
  rw [if_neg (show k + 1 ≠ 0 by omega)]
  by_cases hk : k = 0
  · subst hk
    rw [if_pos rfl]
    constructor
    · rintro ⟨h0, h | h⟩
      · exact ⟨h0, t, le_rfl, by omega, h⟩
      · exact ⟨h0, t - 1, by omega, by omega, h⟩
    · rintro ⟨h0, s, hs, hs', h⟩
      refine ⟨h0, ?_⟩
      rcases Nat.eq_or_lt_of_le hs with e | e
      · subst e; exact Or.inl h
      · rw [show t - 1 = s by omega]; exact Or.inr h
  · rw [if_neg hk]
    constructor
    · rintro ⟨h0, s, hs, hs', h1, h | h⟩
      · exact ⟨h0, s, hs, by omega, h⟩
      · exact ⟨h0, s - 1, by omega, by omega, h⟩
    · rintro ⟨h0, s, hs, hs', h⟩
      refine ⟨h0, ?_⟩
      by_cases hst : s + 1 ≤ t
      · exact ⟨s + 1, hst, by omega, by omega, Or.inr h⟩
      · exact ⟨s, hs, by omega, by omega, Or.inl h⟩

theorem iterInc_orNan (m n : ℕ) : ∀ (k : ℕ) (M : ℕ → ℕ → Prop) (y : ℕ → ℕ → R),
    iterM (fun A : List (List (Mv R)) => A.mapM (increments1 1)) k (tab m fun i => tab n fun t => orNan (M i t) (y i t)) =
      .ok (tab m fun i => tab n fun t => orNan (incMissing k (M i) t) (incOf^[k] (y i) t))
  | 0, M, y => by
    unfold iterM
    congr 1
  | k + 1, M, y => by
    unfold iterM
    rw [show (tab m fun i => tab n fun t => orNan (M i t) (y i t)).mapM (increments1 1) = .ok (tab m fun i => tab n fun t =>
      orNan (0 < t ∧ (M i t ∨ M i (t - 1))) (incOf (y i) t)) from mapM_ok_tab fun i _ => mvInc_orNan n (M i) (y i), ok_bind,
      iterInc_orNan m n k (fun i t => 0 < t ∧ (M i t ∨ M i (t - 1))) fun i => incOf (y i)]
    congr 1
    refine tab_congr fun i _ => tab_congr fun t _ => mk_congr (incMissing_succ k (M i) t) ?_
    rw [Function.iterate_succ_apply]

/-- The missing values of the cumulative sums. -/
def sumMissing (k : ℕ) (M : ℕ → Prop) (t : ℕ) : Prop := if k = 0 then M t else ∃ s ≤ t, M s

theorem sumMissing_succ (k : ℕ) (M : ℕ → Prop) (t : ℕ) : sumMissing k (fun t => ∃ s ≤ t, M s) t ↔ sumMissing (k + 1) M t := by
  unfold sumMissing
  rw [if_neg (show k + 1 ≠ 0 by omega)]
  by_cases hk : k = 0
  · rw [if_pos hk]
  · rw [if_neg hk]
    constructor
    · rintro ⟨s, hs, u, hu, h⟩; exact ⟨u, by omega, h⟩
    · rintro ⟨s, hs, h⟩; exact ⟨s, hs, s, le_rfl, h⟩

theorem iterSum_orNan (m n : ℕ) : ∀ (k : ℕ) (M : ℕ → ℕ → Prop) (y : ℕ → ℕ → R),
    iterM (fun A : List (List (Mv R)) => .ok (A.map cumsum)) k (tab m fun i => tab n fun t => orNan (M i t) (y i t)) =
      .ok (tab m fun i => tab n fun t => orNan (sumMissing k (M i) t) (sumOf^[k] (y i) t))
  | 0, M, y => by
    unfold iterM
    congr 1
  | k + 1, M, y => by
    unfold iterM
    rw [ok_bind, map_tab, tab_congr (g := fun i => tab n fun t => orNan (∃ s ≤ t, M i s) (sumOf (y i) t)) fun i _ => mvCumsum_orNan n (M i) (y i),
      iterSum_orNan m n k (fun i t => ∃ s ≤ t, M i s) fun i => sumOf (y i)]
    congr 1
    refine tab_congr fun i _ => tab_congr fun t _ => mk_congr (sumMissing_succ k (M i) t) ?_
    rw [Function.iterate_succ_apply]

theorem CompletesArr.eq_tab {m n : ℕ} {X : List (List (Mv R))} {Y : List (List R)} (h : CompletesArr m n X Y) :
    X = tab m fun i => tab n fun t => orNan (MissingAt X i t) (at2 Y i t) := by
  conv_lhs => rw [h.shape.eq_tab, tab2]
  exact tab_congr fun i _ => tab_congr fun t _ => eq_mk _ _ fun x hx => h.same i t x hx

theorem preTransform_orNan {m n : ℕ} {X : List (List (Mv R))} {Y : List (List R)} (h : CompletesArr m n X Y) (inc : ℤ) :
    preTransform inc X = .ok (tab m fun i => tab n fun t => orNan (ViewMissing inc (MissingAt X i) t) (viewOf inc (at2 Y i) t)) := by
  unfold preTransform
  by_cases h1 : inc > 0
  · rw [if_pos h1]
    conv_lhs => rw [h.eq_tab]
    rw [iterInc_orNan]
    congr 1
    refine tab_congr fun i _ => tab_congr fun t _ => mk_congr ?_ ?_
    · unfold incMissing ViewMissing
      rw [if_neg (by omega), if_pos h1]
    · unfold viewOf; rw [if_pos (by omega)]
  rw [if_neg h1]
  by_cases h2 : inc < 0
  · rw [if_pos h2]
    conv_lhs => rw [h.eq_tab]
    rw [iterSum_orNan]
    congr 1
    refine tab_congr fun i _ => tab_congr fun t _ => mk_congr ?_ ?_
    · unfold sumMissing ViewMissing
      rw [if_neg (by omega), if_neg h1, if_pos h2]
    · unfold viewOf; rw [if_neg (by omega)]
  · rw [if_neg h2]
    congr 1
    conv_lhs => rw [h.eq_tab]
    refine tab_congr fun i _ => tab_congr fun t _ => mk_congr ?_ ?_
    · unfold ViewMissing
      rw [if_neg h1, if_neg h2]
    · unfold viewOf
      rw [if_pos (by omega), show inc.toNat = 0 by omega]; rfl

theorem second_orNan {m n : ℕ} {X : List (List (Mv R))} {Y : List (List R)} (h : CompletesArr m n X Y) :
    X.mapM secondIncrements = .ok (tab m fun i => tab n fun t => orNan (ViewMissing 2 (MissingAt X i) t) (viewOf 2 (at2 Y i) t)) := by
  conv_lhs => rw [h.eq_tab]
  refine mapM_ok_tab fun i _ => ?_
  unfold secondIncrements
  rw [mvInc_orNan, ok_bind, mvInc_orNan]
  congr 1
  refine tab_congr fun t _ => mk_congr ?_ rfl
  have h1 := incMissing_succ 0 (fun t => 0 < t ∧ (MissingAt X i t ∨ MissingAt X i (t - 1))) t
  have h2 := incMissing_succ 1 (MissingAt X i) t
  have h3 : incMissing 0 (fun t => 0 < t ∧ ((0 < t ∧ (MissingAt X i t ∨ MissingAt X i (t - 1))) ∨
    (0 < t - 1 ∧ (MissingAt X i (t - 1) ∨ MissingAt X i (t - 1 - 1))))) t = _ := if_pos rfl
  rw [h3] at h1
  refine (h1.trans h2).trans ?_
  unfold incMissing ViewMissing
  rw [if_neg (by omega), if_pos (by omega)]
  rfl

theorem orNan_shape (m n : ℕ) (M : ℕ → ℕ → Prop) (y : ℕ → ℕ → R) : HasShape2 (tab m fun i => tab n fun t => orNan (M i t) (y i t)) m n := by
  refine ⟨by simp, fun r hr => ?_⟩
  obtain ⟨i, _, rfl⟩ := mem_tab.1 hr
  simp

/-- What the segment sieves share. -/
theorem mseg_exists {m d n : ℕ} {C : Data (Mv R)} {D : Data R} (hC : CompletesData m d n C D) (hm : 0 < m) (hd : 0 < d) (hn : 0 < n) (p : MSeg R)
    (hp : ∀ c ∈ p.cut, c.InRange n) (qs : List (QVal R)) (hq : qs ≠ []) (op : MOp R) (M : ℕ → ℕ → Prop) (y : ℕ → ℕ → R)
    (P : ℕ → ℕ → ℕ → Mv R → Prop) (A : List (List (Mv R))) (hA : A = tab m fun i => tab n fun t => orNan (M i t) (y i t))
    (hop : ∀ i < m, ∀ j < p.cut.length, ∀ k < qs.length - 1, ∃ v,
      op (tab n fun t => orNan (M i t) (y i t)) ((mbounds C D p n i).getD j 0 : ℕ) ((mbounds C D p n i).getD (j + 1) 0 : ℕ)
        (.num (qs.getD k ⊥)) (.num (qs.getD (k + 1) ⊥)) = .ok v ∧ P i j k v) :
    ∃ Z, (p.cuts C A.length (rowLen A) >>= fun cuts => Mv.backend op cuts (qs.map Mv.num) A) = .ok Z ∧
      HasShape2 Z m (p.cut.length * (qs.length - 1)) ∧
      ∀ i < m, ∀ j < p.cut.length, ∀ k < qs.length - 1, P i j k (at2 Z i (j * (qs.length - 1) + k)) := by
  have hs : HasShape2 A m n := by rw [hA]; exact orNan_shape m n M y
  rw [hs.1, hs.rowLen_eq hm, mcuts_eq hC hd hn p hp, ok_bind]
  refine mbackend_exists op qs A (fun i => mbounds C D p n i) p.cut.length hs (fun i _ => mbounds_length C D p n i) hq P ?_
  intro i hi j hj k hk
  rw [show A.getD i [] = tab n fun t => orNan (M i t) (y i t) by rw [hA, getD_tab hi]]
  exact hop i hi j hj k hk

/-! ## C170 -/

/-- **C170 (MAX).** A missing value is skipped: column `j * K + k` is the greatest of the known values of segment `j` in band `k`. -/
theorem C170_max {m d n : ℕ} {C : Data (Mv R)} {D : Data R} {X : List (List (Mv R))} {Y : List (List R)} (hC : CompletesData m d n C D)
    (hX : CompletesArr m n X Y) (hm : 0 < m) (hd : 0 < d) (hn : 0 < n) (p : MSeg R) (hp : ∀ c ∈ p.cut, c.InRange n) (qs : List (QVal R))
    (hqs : p.useQuantiles = .ok (qs.map Mv.num)) (hq : qs ≠ [])
    (hne : ∀ i < m, ∀ j < p.cut.length, ∀ k < qs.length - 1, (mbounds C D p n i).getD j 0 ≠ (mbounds C D p n i).getD (j + 1) 0 →
      (khits (mbounds C D p n i) j (qs.getD k ⊥) (qs.getD (k + 1) ⊥) (MissingAt X i) (at2 Y i)).Nonempty) :
    ∃ Z, (MSieve.seg .max p).transformC C X = .ok Z ∧ HasShape2 Z m (p.cut.length * (qs.length - 1)) ∧
      ∀ i < m, ∀ j < p.cut.length, ∀ k < qs.length - 1,
        ((mbounds C D p n i).getD j 0 = (mbounds C D p n i).getD (j + 1) 0 → at2 Z i (j * (qs.length - 1) + k) = .num 0) ∧
        ((mbounds C D p n i).getD j 0 ≠ (mbounds C D p n i).getD (j + 1) 0 → ∃ v, at2 Z i (j * (qs.length - 1) + k) = .num v ∧
          IsGreatest {u | ∃ t ∈ khits (mbounds C D p n i) j (qs.getD k ⊥) (qs.getD (k + 1) ⊥) (MissingAt X i) (at2 Y i), at2 Y i t = u} v) := by
  classical
  simp only [MSieve.transformC, MSeg.transform]
  rw [hqs, ok_bind]
  refine mseg_exists hC hm hd hn p hp qs hq Mv.opMax (MissingAt X) (at2 Y) (fun i j k w =>
    ((mbounds C D p n i).getD j 0 = (mbounds C D p n i).getD (j + 1) 0 → w = .num 0) ∧
    ((mbounds C D p n i).getD j 0 ≠ (mbounds C D p n i).getD (j + 1) 0 → ∃ v, w = .num v ∧
      IsGreatest {u | ∃ t ∈ khits (mbounds C D p n i) j (qs.getD k ⊥) (qs.getD (k + 1) ⊥) (MissingAt X i) (at2 Y i), at2 Y i t = u} v)) X hX.eq_tab ?_
  intro i hi j hj k hk
  unfold Mv.opMax
  by_cases he : (mbounds C D p n i).getD j 0 = (mbounds C D p n i).getD (j + 1) 0
  · rw [if_pos (by rw [he])]
    exact ⟨_, rfl, fun _ => rfl, fun h => absurd he h⟩
  · rw [if_neg (by exact_mod_cast he), mband_slc n _ _ (mbounds_le C D p n i hp (j + 1)), maxE_nums]
    obtain ⟨t, ht⟩ := hne i hi j hj k hk he
    have hmem : ∀ u, u ∈ (((List.range' ((mbounds C D p n i).getD j 0) ((mbounds C D p n i).getD (j + 1) 0 - (mbounds C D p n i).getD j 0)).filter
        fun t => decide (¬ MissingAt X i t ∧ InBand (qs.getD k ⊥) (qs.getD (k + 1) ⊥) (at2 Y i t))).map (at2 Y i)) ↔
        ∃ t ∈ khits (mbounds C D p n i) j (qs.getD k ⊥) (qs.getD (k + 1) ⊥) (MissingAt X i) (at2 Y i), at2 Y i t = u := by
      intro u
      rw [List.mem_map, ← khits_list]
      simp only [List.mem_toFinset]
    obtain ⟨V, hV⟩ := listMax_isSome (List.ne_nil_of_mem ((hmem _).2 ⟨t, ht, rfl⟩))
    refine ⟨.num V, by unfold maxE; rw [hV]; rfl, fun h => absurd h he, fun _ => ⟨V, rfl, ?_⟩⟩
    obtain ⟨h1, h2⟩ := listMax_eq_some.1 hV
    exact ⟨(hmem V).1 h1, fun u hu => h2 u ((hmem u).2 hu)⟩

/-- **C170 (MIN).** -/
theorem C170_min {m d n : ℕ} {C : Data (Mv R)} {D : Data R} {X : List (List (Mv R))} {Y : List (List R)} (hC : CompletesData m d n C D)
    (hX : CompletesArr m n X Y) (hm : 0 < m) (hd : 0 < d) (hn : 0 < n) (p : MSeg R) (hp : ∀ c ∈ p.cut, c.InRange n) (qs : List (QVal R))
    (hqs : p.useQuantiles = .ok (qs.map Mv.num)) (hq : qs ≠ [])
    (hne : ∀ i < m, ∀ j < p.cut.length, ∀ k < qs.length - 1, (mbounds C D p n i).getD j 0 ≠ (mbounds C D p n i).getD (j + 1) 0 →
      (khits (mbounds C D p n i) j (qs.getD k ⊥) (qs.getD (k + 1) ⊥) (MissingAt X i) (at2 Y i)).Nonempty) :
    ∃ Z, (MSieve.seg .min p).transformC C X = .ok Z ∧ HasShape2 Z m (p.cut.length * (qs.length - 1)) ∧
      ∀ i < m, ∀ j < p.cut.length, ∀ k < qs.length - 1,
        ((mbounds C D p n i).getD j 0 = (mbounds C D p n i).getD (j + 1) 0 → at2 Z i (j * (qs.length - 1) + k) = .num 0) ∧
        ((mbounds C D p n i).getD j 0 ≠ (mbounds C D p n i).getD (j + 1) 0 → ∃ v, at2 Z i (j * (qs.length - 1) + k) = .num v ∧
          IsLeast {u | ∃ t ∈ khits (mbounds C D p n i) j (qs.getD k ⊥) (qs.getD (k + 1) ⊥) (MissingAt X i) (at2 Y i), at2 Y i t = u} v) := by
  classical
  simp only [MSieve.transformC, MSeg.transform]
  rw [hqs, ok_bind]
  refine mseg_exists hC hm hd hn p hp qs hq Mv.opMin (MissingAt X) (at2 Y) (fun i j k w =>
    ((mbounds C D p n i).getD j 0 = (mbounds C D p n i).getD (j + 1) 0 → w = .num 0) ∧
    ((mbounds C D p n i).getD j 0 ≠ (mbounds C D p n i).getD (j + 1) 0 → ∃ v, w = .num v ∧
      IsLeast {u | ∃ t ∈ khits (mbounds C D p n i) j (qs.getD k ⊥) (qs.getD (k + 1) ⊥) (MissingAt X i) (at2 Y i), at2 Y i t = u} v)) X hX.eq_tab ?_
  intro i hi j hj k hk
  unfold Mv.opMin
  by_cases he : (mbounds C D p n i).getD j 0 = (mbounds C D p n i).getD (j + 1) 0
  · rw [if_pos (by rw [he])]
    exact ⟨_, rfl, fun _ => rfl, fun h => absurd he h⟩
  · rw [if_neg (by exact_mod_cast he), mband_slc n _ _ (mbounds_le C D p n i hp (j + 1)), minE_nums]
    obtain ⟨t, ht⟩ := hne i hi j hj k hk he
    have hmem : ∀ u, u ∈ (((List.range' ((mbounds C D p n i).getD j 0) ((mbounds C D p n i).getD (j + 1) 0 - (mbounds C D p n i).getD j 0)).filter
        fun t => decide (¬ MissingAt X i t ∧ InBand (qs.getD k ⊥) (qs.getD (k + 1) ⊥) (at2 Y i t))).map (at2 Y i)) ↔
        ∃ t ∈ khits (mbounds C D p n i) j (qs.getD k ⊥) (qs.getD (k + 1) ⊥) (MissingAt X i) (at2 Y i), at2 Y i t = u := by
      intro u
      rw [List.mem_map, ← khits_list]
      simp only [List.mem_toFinset]
    obtain ⟨V, hV⟩ := listMin_isSome (List.ne_nil_of_mem ((hmem _).2 ⟨t, ht, rfl⟩))
    refine ⟨.num V, by unfold minE; rw [hV]; rfl, fun h => absurd h he, fun _ => ⟨V, rfl, ?_⟩⟩
    obtain ⟨h1, h2⟩ := listMin_eq_some.1 hV
    exact ⟨(hmem V).1 h1, fun u hu => h2 u ((hmem u).2 hu)⟩

/-- **C170 (CUR).** The sum of the squares of those second increments of the segment which are known and in the band. -/
theorem C170_cur {m d n : ℕ} {C : Data (Mv R)} {D : Data R} {X : List (List (Mv R))} {Y : List (List R)} (hC : CompletesData m d n C D)
    (hX : CompletesArr m n X Y) (hm : 0 < m) (hd : 0 < d) (hn : 0 < n) (p : MSeg R) (hp : ∀ c ∈ p.cut, c.InRange n) (qs : List (QVal R))
    (hqs : p.useQuantiles = .ok (qs.map Mv.num)) (hq : qs ≠ []) :
    ∃ Z, (MSieve.seg .cur p).transformC C X = .ok Z ∧ HasShape2 Z m (p.cut.length * (qs.length - 1)) ∧
      ∀ i < m, ∀ j < p.cut.length, ∀ k < qs.length - 1, at2 Z i (j * (qs.length - 1) + k) =
        .num (∑ t ∈ khits (mbounds C D p n i) j (qs.getD k ⊥) (qs.getD (k + 1) ⊥) (ViewMissing 2 (MissingAt X i)) (viewOf 2 (at2 Y i)),
          viewOf 2 (at2 Y i) t ^ 2) := by
  classical
  simp only [MSieve.transformC, MSeg.transform]
  rw [hqs, ok_bind]
  have h := mseg_exists hC hm hd hn p hp qs hq Mv.opCur (fun i => ViewMissing 2 (MissingAt X i)) (fun i => viewOf 2 (at2 Y i)) (fun i j k w => w =
        .num (∑ t ∈ khits (mbounds C D p n i) j (qs.getD k ⊥) (qs.getD (k + 1) ⊥) (ViewMissing 2 (MissingAt X i)) (viewOf 2 (at2 Y i)),
          viewOf 2 (at2 Y i) t ^ 2)) _ rfl ?_
  · rw [(orNan_shape m n _ _).1, (orNan_shape m n _ _).rowLen_eq hm] at h
    rw [hX.shape.1, hX.shape.rowLen_eq hm, mcuts_eq hC hd hn p hp, ok_bind, second_orNan hX, ok_bind]
    rw [mcuts_eq hC hd hn p hp, ok_bind] at h
    exact h
  intro i hi j hj k hk
  refine ⟨_, rfl, ?_⟩
  rw [mband_slc n _ _ (mbounds_le C D p n i hp (j + 1)), ← khits_sum, ← nums_sum]
  congr 1
  unfold Mv.nums
  rw [List.map_map, List.map_map, List.map_map]
  refine List.map_congr_left fun t _ => ?_
  change Mv.num (_ * _) = Mv.num (_ ^ 2)
  rw [sq]

/-- What the increment sieves share. -/
theorem minc_exists {m d n : ℕ} {C : Data (Mv R)} {D : Data R} {X : List (List (Mv R))} {Y : List (List R)} (hC : CompletesData m d n C D)
    (hX : CompletesArr m n X Y) (hm : 0 < m) (hd : 0 < d) (hn : 0 < n) (p : MSeg R) (hp : ∀ c ∈ p.cut, c.InRange n) (qs : List (QVal R))
    (hqs : p.useQuantiles = .ok (qs.map Mv.num)) (hq : qs ≠ []) (kind : IncKind) (inc : ℤ) (P : ℕ → ℕ → ℕ → Mv R → Prop)
    (hop : ∀ i < m, ∀ j < p.cut.length, ∀ k < qs.length - 1, ∃ v,
      incOp kind (tab n fun t => orNan (ViewMissing inc (MissingAt X i) t) (viewOf inc (at2 Y i) t)) ((mbounds C D p n i).getD j 0 : ℕ)
        ((mbounds C D p n i).getD (j + 1) 0 : ℕ) (.num (qs.getD k ⊥)) (.num (qs.getD (k + 1) ⊥)) = .ok v ∧ P i j k v) :
    ∃ Z, (MSieve.inc kind inc p).transformC C X = .ok Z ∧ HasShape2 Z m (p.cut.length * (qs.length - 1)) ∧
      ∀ i < m, ∀ j < p.cut.length, ∀ k < qs.length - 1, P i j k (at2 Z i (j * (qs.length - 1) + k)) := by
  simp only [MSieve.transformC, MSeg.incTransform]
  rw [hqs, ok_bind, preTransform_orNan hX, ok_bind]
  exact mseg_exists hC hm hd hn p hp qs hq (incOp kind) _ _ P _ rfl hop

/-- **C170 (NPI).** The number of time points of the segment at which the view is known and in the band. -/
theorem C170_npi {m d n : ℕ} {C : Data (Mv R)} {D : Data R} {X : List (List (Mv R))} {Y : List (List R)} (hC : CompletesData m d n C D)
    (hX : CompletesArr m n X Y) (hm : 0 < m) (hd : 0 < d) (hn : 0 < n) (p : MSeg R) (hp : ∀ c ∈ p.cut, c.InRange n) (qs : List (QVal R))
    (hqs : p.useQuantiles = .ok (qs.map Mv.num)) (hq : qs ≠ []) (inc : ℤ) :
    ∃ Z, (MSieve.inc .npi inc p).transformC C X = .ok Z ∧ HasShape2 Z m (p.cut.length * (qs.length - 1)) ∧
      ∀ i < m, ∀ j < p.cut.length, ∀ k < qs.length - 1, at2 Z i (j * (qs.length - 1) + k) =
        .num ((khits (mbounds C D p n i) j (qs.getD k ⊥) (qs.getD (k + 1) ⊥) (ViewMissing inc (MissingAt X i)) (viewOf inc (at2 Y i))).card : R) := by
  refine minc_exists hC hX hm hd hn p hp qs hqs hq .npi inc (fun i j k w => w =
        .num ((khits (mbounds C D p n i) j (qs.getD k ⊥) (qs.getD (k + 1) ⊥) (ViewMissing inc (MissingAt X i)) (viewOf inc (at2 Y i))).card : R)) ?_
  intro i hi j hj k hk
  refine ⟨_, rfl, ?_⟩
  rw [mband_slc n _ _ (mbounds_le C D p n i hp (j + 1)), nums_length, List.length_map, khits_card]

/-- **C170 (MPI).** The mean of the values of the view in the segment which are known and in the band, 0 if there is none. -/
theorem C170_mpi {m d n : ℕ} {C : Data (Mv R)} {D : Data R} {X : List (List (Mv R))} {Y : List (List R)} (hC : CompletesData m d n C D)
    (hX : CompletesArr m n X Y) (hm : 0 < m) (hd : 0 < d) (hn : 0 < n) (p : MSeg R) (hp : ∀ c ∈ p.cut, c.InRange n) (qs : List (QVal R))
    (hqs : p.useQuantiles = .ok (qs.map Mv.num)) (hq : qs ≠ []) (inc : ℤ) :
    ∃ Z, (MSieve.inc .mpi inc p).transformC C X = .ok Z ∧ HasShape2 Z m (p.cut.length * (qs.length - 1)) ∧
      ∀ i < m, ∀ j < p.cut.length, ∀ k < qs.length - 1,
        let H := khits (mbounds C D p n i) j (qs.getD k ⊥) (qs.getD (k + 1) ⊥) (ViewMissing inc (MissingAt X i)) (viewOf inc (at2 Y i))
        at2 Z i (j * (qs.length - 1) + k) = .num (if H.card = 0 then 0 else (∑ t ∈ H, viewOf inc (at2 Y i) t) / H.card) := by
  classical
  refine minc_exists hC hX hm hd hn p hp qs hqs hq .mpi inc (fun i j k w =>
        let H := khits (mbounds C D p n i) j (qs.getD k ⊥) (qs.getD (k + 1) ⊥) (ViewMissing inc (MissingAt X i)) (viewOf inc (at2 Y i))
        w = .num (if H.card = 0 then 0 else (∑ t ∈ H, viewOf inc (at2 Y i) t) / H.card)) ?_
  intro i hi j hj k hk
  refine ⟨_, rfl, ?_⟩
  intro H
  rw [mband_slc n _ _ (mbounds_le C D p n i hp (j + 1)), nums_length, List.length_map, khits_card]
  by_cases h : H.card = 0
  · rw [if_pos h, if_pos h]; rfl
  · rw [if_neg h, if_neg h]
    unfold Mv.mean
    rw [nums_sum, nums_length, List.length_map, khits_sum, khits_card]; rfl

/-- **C170 (LPI).** The greatest length of a run of consecutive time points of the segment at all of which the view is known and in the band. -/
theorem C170_lpi {m d n : ℕ} {C : Data (Mv R)} {D : Data R} {X : List (List (Mv R))} {Y : List (List R)} (hC : CompletesData m d n C D)
    (hX : CompletesArr m n X Y) (hm : 0 < m) (hd : 0 < d) (hn : 0 < n) (p : MSeg R) (hp : ∀ c ∈ p.cut, c.InRange n) (qs : List (QVal R))
    (hqs : p.useQuantiles = .ok (qs.map Mv.num)) (hq : qs ≠ []) (inc : ℤ) :
    ∃ Z, (MSieve.inc .lpi inc p).transformC C X = .ok Z ∧ HasShape2 Z m (p.cut.length * (qs.length - 1)) ∧
      ∀ i < m, ∀ j < p.cut.length, ∀ k < qs.length - 1, ∃ l : ℕ, at2 Z i (j * (qs.length - 1) + k) = .num (l : R) ∧
        IsGreatest {l | IsRun (fun t => ¬ ViewMissing inc (MissingAt X i) t ∧ InBand (qs.getD k ⊥) (qs.getD (k + 1) ⊥) (viewOf inc (at2 Y i) t))
          ((mbounds C D p n i).getD j 0) ((mbounds C D p n i).getD (j + 1) 0) l} l := by
  classical
  refine minc_exists hC hX hm hd hn p hp qs hqs hq .lpi inc (fun i j k w => ∃ l : ℕ, w = .num (l : R) ∧
        IsGreatest {l | IsRun (fun t => ¬ ViewMissing inc (MissingAt X i) t ∧ InBand (qs.getD k ⊥) (qs.getD (k + 1) ⊥) (viewOf inc (at2 Y i) t))
          ((mbounds C D p n i).getD j 0) ((mbounds C D p n i).getD (j + 1) 0) l} l) ?_
  intro i hi j hj k hk
  refine ⟨_, rfl, _, rfl, ?_⟩
  have hb := mbounds_le C D p n i hp (j + 1)
  have hmono := mbounds_mono C D p n i hj
  rw [slc_tab, min_eq_left hb, map_tab]
  have h := longestRun_spec (fun t => ¬ ViewMissing inc (MissingAt X i) t ∧ InBand (qs.getD k ⊥) (qs.getD (k + 1) ⊥) (viewOf inc (at2 Y i) t))
    ((mbounds C D p n i).getD j 0) ((mbounds C D p n i).getD (j + 1) 0)
    ((mbounds C D p n i).getD (j + 1) 0 - (mbounds C D p n i).getD j 0) ((mbounds C D p n i).getD j 0) 0 0 (by omega) le_rfl
    (by omega) (by intro t h1 h2; omega) (Or.inl rfl) ⟨_, le_rfl, le_rfl, by intro t h1 h2; omega⟩
    (by rintro l ⟨s, h1, h2, -⟩; omega)
  rw [range'_eq_tab, map_tab] at h
  simp only [inBand_orNan]
  exact h

theorem tab_zipIdx {α : Type} (c : ℕ) (f : ℕ → α) : (tab c f).zipIdx = tab c fun t => (f t, t) := by
  apply List.ext_getElem
  · simp
  · intro i h1 h2
    simp

/-- **C170 (XPI).** The mean of the positions, counted from the start of the segment, at which the view is known and in the band, 0 if there is none. -/
theorem C170_xpi {m d n : ℕ} {C : Data (Mv R)} {D : Data R} {X : List (List (Mv R))} {Y : List (List R)} (hC : CompletesData m d n C D)
    (hX : CompletesArr m n X Y) (hm : 0 < m) (hd : 0 < d) (hn : 0 < n) (p : MSeg R) (hp : ∀ c ∈ p.cut, c.InRange n) (qs : List (QVal R))
    (hqs : p.useQuantiles = .ok (qs.map Mv.num)) (hq : qs ≠ []) (inc : ℤ) :
    ∃ Z, (MSieve.inc .xpi inc p).transformC C X = .ok Z ∧ HasShape2 Z m (p.cut.length * (qs.length - 1)) ∧
      ∀ i < m, ∀ j < p.cut.length, ∀ k < qs.length - 1,
        let H := khits (mbounds C D p n i) j (qs.getD k ⊥) (qs.getD (k + 1) ⊥) (ViewMissing inc (MissingAt X i)) (viewOf inc (at2 Y i))
        at2 Z i (j * (qs.length - 1) + k) =
          .num (if H.card = 0 then 0 else (∑ t ∈ H, ((t - (mbounds C D p n i).getD j 0 : ℕ) : R)) / H.card) := by
  classical
  refine minc_exists hC hX hm hd hn p hp qs hqs hq .xpi inc (fun i j k w =>
        let H := khits (mbounds C D p n i) j (qs.getD k ⊥) (qs.getD (k + 1) ⊥) (ViewMissing inc (MissingAt X i)) (viewOf inc (at2 Y i))
        w = .num (if H.card = 0 then 0 else (∑ t ∈ H, ((t - (mbounds C D p n i).getD j 0 : ℕ) : R)) / H.card)) ?_
  intro i hi j hj k hk
  refine ⟨_, rfl, ?_⟩
  intro H
  have hl : ((slc (tab n fun t => orNan (ViewMissing inc (MissingAt X i) t) (viewOf inc (at2 Y i) t)) ((mbounds C D p n i).getD j 0 : ℕ)
      ((mbounds C D p n i).getD (j + 1) 0 : ℕ)).zipIdx.filter fun e => Mv.inBand (.num (qs.getD k ⊥)) (.num (qs.getD (k + 1) ⊥)) e.1).map
        (fun e => (e.2 : R)) =
      ((List.range' ((mbounds C D p n i).getD j 0) ((mbounds C D p n i).getD (j + 1) 0 - (mbounds C D p n i).getD j 0)).filter fun t =>
        decide (¬ ViewMissing inc (MissingAt X i) t ∧ InBand (qs.getD k ⊥) (qs.getD (k + 1) ⊥) (viewOf inc (at2 Y i) t))).map
        fun t => ((t - (mbounds C D p n i).getD j 0 : ℕ) : R) := by
    rw [slc_tab, min_eq_left (mbounds_le C D p n i hp (j + 1))]
    generalize (mbounds C D p n i).getD j 0 = a
    generalize (mbounds C D p n i).getD (j + 1) 0 - a = c
    rw [tab_zipIdx, range'_eq_tab]
    unfold tab
    rw [List.filter_map, List.filter_map, List.map_map, List.map_map]
    have hf : ∀ t, ((fun e : Mv R × ℕ => Mv.inBand (.num (qs.getD k ⊥)) (.num (qs.getD (k + 1) ⊥)) e.1) ∘ fun t =>
        (orNan (ViewMissing inc (MissingAt X i) (a + t)) (viewOf inc (at2 Y i) (a + t)), t)) t =
        ((fun t => decide (¬ ViewMissing inc (MissingAt X i) t ∧ InBand (qs.getD k ⊥) (qs.getD (k + 1) ⊥) (viewOf inc (at2 Y i) t))) ∘ fun t => a + t) t :=
      fun t => inBand_orNan _ _ _ _
    rw [List.filter_congr fun t _ => hf t]
    refine List.map_congr_left fun t _ => ?_
    simp only [Function.comp_apply, Nat.add_sub_cancel_left]
  rw [hl, List.length_map, khits_card]
  by_cases h : H.card = 0
  · rw [if_pos h, if_pos h]
  · rw [if_neg h, if_neg h]
    unfold mean
    rw [List.length_map, khits_sum, khits_card]

end Fruits
