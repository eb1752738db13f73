import Verif.Props.Sieve1
import Mathlib.Data.Finset.Sort
import Mathlib.Algebra.BigOperators.Intervals

/-! # C61 – C66: the features of the segment and increment sieves -/

namespace Fruits
set_option linter.unusedSectionVars false
open Finset

variable {R : Type} [Field R] [LinearOrder R] [IsStrictOrderedRing R] [FloorRing R]

/-! ### Specification -/

/-- `lo < v <= hi`. -/
def InBand (lo hi : QVal R) (v : R) : Prop := lo < QVal.of v ∧ QVal.of v ≤ hi

instance (lo hi : QVal R) (v : R) : Decidable (InBand lo hi v) := by unfold InBand; infer_instance

/-- The time indices of segment `j` (ends `b`) at which the series `x` lies in the band `(lo, hi]`. -/
def hits (b : List ℕ) (j : ℕ) (lo hi : QVal R) (x : ℕ → R) : Finset ℕ :=
  {t ∈ Finset.Ico (b.getD j 0) (b.getD (j + 1) 0) | InBand lo hi (x t)}

/-- The increments of a series with a zero in front. -/
def incOf (x : ℕ → R) (t : ℕ) : R := if t = 0 then 0 else x t - x (t - 1)

/-- The cumulative sums of a series. -/
def sumOf (x : ℕ → R) (t : ℕ) : R := ∑ s ∈ Finset.range (t + 1), x s

/-- The series an increment sieve with the argument `inc` looks at. -/
def viewOf (inc : ℤ) (x : ℕ → R) : ℕ → R := if 0 ≤ inc then incOf^[inc.toNat] x else sumOf^[(-inc).toNat] x

/-! ### Lemmas -/

theorem range'_toFinset (a c : ℕ) : (List.range' a c).toFinset = Finset.Ico a (a + c) := by
  ext t; simp [List.mem_range'_1]

/-- The in-band values of a segment, as values at time indices. -/
theorem band_slc (n a b : ℕ) (hb : b ≤ n) (lo hi : QVal R) (x : ℕ → R) :
    band lo hi (slc (tab n x) a b) = ((List.range' a (b - a)).filter fun t => decide (InBand lo hi (x t))).map x := by
  rw [slc_tab, min_eq_left hb]
  unfold band
  have : tab (b - a) (fun t => x (a + t)) = (List.range' a (b - a)).map x := by
    rw [range'_eq_tab, map_tab]
  rw [this, List.filter_map]
  rfl

theorem hits_list (b : List ℕ) (j : ℕ) (lo hi : QVal R) (x : ℕ → R) :
    ((List.range' (b.getD j 0) (b.getD (j + 1) 0 - b.getD j 0)).filter fun t => decide (InBand lo hi (x t))).toFinset
    = hits b j lo hi x := by
  rw [List.toFinset_filter, range'_toFinset]
  unfold hits
  ext t
  simp only [Finset.mem_filter, Finset.mem_Ico, decide_eq_true_eq]
  constructor
  · rintro ⟨h1, h2⟩; exact ⟨by omega, h2⟩
  · rintro ⟨h1, h2⟩; exact ⟨by omega, h2⟩

theorem hits_nodup (a c : ℕ) (P : ℕ → Bool) : ((List.range' a c).filter P).Nodup := (List.nodup_range' (h := by omega)).filter _

theorem band_sum (n : ℕ) (b : List ℕ) (j : ℕ) (hb : b.getD (j + 1) 0 ≤ n) (lo hi : QVal R) (x g : ℕ → R) (h : R → R)
    (hg : ∀ t, g t = h (x t)) :
    ((band lo hi (slc (tab n x) (b.getD j 0 : ℕ) (b.getD (j + 1) 0 : ℕ))).map h).sum = ∑ t ∈ hits b j lo hi x, g t := by
  rw [band_slc _ _ _ hb, List.map_map, ← hits_list, List.sum_toFinset _ (hits_nodup _ _ _)]
  congr 1
  apply List.map_congr_left
  intro t _
  rw [hg]; rfl

theorem band_length (n : ℕ) (b : List ℕ) (j : ℕ) (hb : b.getD (j + 1) 0 ≤ n) (lo hi : QVal R) (x : ℕ → R) :
    (band lo hi (slc (tab n x) (b.getD j 0 : ℕ) (b.getD (j + 1) 0 : ℕ))).length = (hits b j lo hi x).card := by
  rw [band_slc _ _ _ hb, List.length_map, ← hits_list, List.toFinset_card_of_nodup (hits_nodup _ _ _)]

theorem mem_band (n : ℕ) (b : List ℕ) (j : ℕ) (hb : b.getD (j + 1) 0 ≤ n) (lo hi : QVal R) (x : ℕ → R) (v : R) :
    v ∈ band lo hi (slc (tab n x) (b.getD j 0 : ℕ) (b.getD (j + 1) 0 : ℕ)) ↔ ∃ t ∈ hits b j lo hi x, x t = v := by
  rw [band_slc _ _ _ hb, List.mem_map]
  simp only [← hits_list, List.mem_toFinset]

theorem mean_eq (xs : List R) : mean xs = xs.sum / xs.length := rfl

/-- The common part of all segment sieves. -/
theorem seg_features (T : FloatText R) (hT : T.Lawful) (C : Data R) (p : Seg R) (op : SegOp R) (v : ℕ → ℕ → ℕ → R)
    (A : List (List R)) (qs : List (QVal R)) {m dc n : ℕ} (hA : HasShape2 A m n) (hC : HasShape C m dc n)
    (hm : 0 < m) (hdc : 0 < dc) (hn : 0 < n) (hp : ∀ c ∈ p.cut, c.InRange n) (hq : qs ≠ [])
    (hop : ∀ i < m, ∀ j < p.cut.length, ∀ k < qs.length - 1,
      op (tab n (at2 A i)) ((bounds C p n i).getD j 0 : ℕ) ((bounds C p n i).getD (j + 1) 0 : ℕ) (qs.getD k ⊥)
        (qs.getD (k + 1) ⊥) = .ok (v i j k)) :
    (do let cuts ← p.cuts T C A.length (rowLen A); backend op cuts qs A)
    = .ok (tab2 m (p.cut.length * (qs.length - 1)) fun i f => v i (f / (qs.length - 1)) (f % (qs.length - 1))) := by
  rw [hA.1, hA.rowLen_eq hm, cuts_eq T hT C p hC hdc hn hp, ok_bind]
  rw [backend_eq op v qs A (fun i => bounds C p n i) p.cut.length hA (fun i _ => bounds_length C p n i) hq hop]
  rfl

theorem div_of_lt {K j k : ℕ} (hk : k < K) : (j * K + k) / K = j ∧ (j * K + k) % K = k := by
  rw [Nat.mul_comm, Nat.mul_add_div (by omega), Nat.mul_add_mod, Nat.div_eq_of_lt hk, Nat.mod_eq_of_lt hk]
  exact ⟨rfl, rfl⟩

theorem idx_lt {J K j k : ℕ} (hj : j < J) (hk : k < K) : j * K + k < J * K := by
  have : (j + 1) * K ≤ J * K := Nat.mul_le_mul_right _ hj
  rw [Nat.succ_mul] at this
  omega

/-- Reading a feature from the table of `seg_features`. -/
theorem feature_at {m J K : ℕ} (v : ℕ → ℕ → ℕ → R) {i j k : ℕ} (hi : i < m) (hj : j < J) (hk : k < K) :
    at2 (tab2 m (J * K) fun i f => v i (f / K) (f % K)) i (j * K + k) = v i j k := by
  rw [at2_tab2 hi (idx_lt hj hk), (div_of_lt hk).1, (div_of_lt hk).2]

theorem HasShape2.tab2 (m n : ℕ) (F : ℕ → ℕ → R) : HasShape2 (Fruits.tab2 m n F) m n := by
  refine ⟨by simp [Fruits.tab2], ?_⟩
  intro r hr
  obtain ⟨i, _, rfl⟩ := mem_tab.1 hr
  simp

/-- The common part of all segment sieves, for features given by a property. -/
theorem seg_exists (T : FloatText R) (hT : T.Lawful) (C : Data R) (p : Seg R) (op : SegOp R)
    (A : List (List R)) (qs : List (QVal R)) {m dc n : ℕ} (hA : HasShape2 A m n) (hC : HasShape C m dc n)
    (hm : 0 < m) (hdc : 0 < dc) (hn : 0 < n) (hp : ∀ c ∈ p.cut, c.InRange n) (hq : qs ≠ [])
    (Q : ℕ → ℕ → ℕ → R → Prop)
    (hop : ∀ i < m, ∀ j < p.cut.length, ∀ k < qs.length - 1, ∃ v,
      op (tab n (at2 A i)) ((bounds C p n i).getD j 0 : ℕ) ((bounds C p n i).getD (j + 1) 0 : ℕ) (qs.getD k ⊥)
        (qs.getD (k + 1) ⊥) = .ok v ∧ Q i j k v) :
    ∃ Y, (do let cuts ← p.cuts T C A.length (rowLen A); backend op cuts qs A) = .ok Y ∧
      HasShape2 Y m (p.cut.length * (qs.length - 1)) ∧
      ∀ i < m, ∀ j < p.cut.length, ∀ k < qs.length - 1, Q i j k (at2 Y i (j * (qs.length - 1) + k)) := by
  choose! v hv using hop
  refine ⟨_, seg_features T hT C p op v A qs hA hC hm hdc hn hp hq fun i hi j hj k hk => (hv i hi j hj k hk).1,
    HasShape2.tab2 _ _ _, ?_⟩
  intro i hi j hj k hk
  rw [feature_at v hi hj hk]
  exact (hv i hi j hj k hk).2

/-! ### C61 -/

/-- **C61 (general).** For any quantile values, `MAX` returns in column `j * K + k` the greatest of the values of segment `j`
in the band `k`, and 0 for an empty segment; `K` is the number of bands. -/
theorem C61_max_bands (T : FloatText R) (hT : T.Lawful) (C : Data R) (p : Seg R) (X : List (List R)) (qs : List (QVal R))
    {m dc n : ℕ} (hX : HasShape2 X m n) (hC : HasShape C m dc n) (hm : 0 < m) (hdc : 0 < dc) (hn : 0 < n)
    (hp : ∀ c ∈ p.cut, c.InRange n) (hqs : p.useQuantiles = .ok qs) (hq : qs ≠ [])
    (hne : ∀ i < m, ∀ j < p.cut.length, ∀ k < qs.length - 1,
      (bounds C p n i).getD j 0 ≠ (bounds C p n i).getD (j + 1) 0 →
      (hits (bounds C p n i) j (qs.getD k ⊥) (qs.getD (k + 1) ⊥) (at2 X i)).Nonempty) :
    ∃ Y, (Sieve.seg .max p).transformC T C X = .ok Y ∧ HasShape2 Y m (p.cut.length * (qs.length - 1)) ∧
      ∀ i < m, ∀ j < p.cut.length, ∀ k < qs.length - 1,
        ((bounds C p n i).getD j 0 = (bounds C p n i).getD (j + 1) 0 → at2 Y i (j * (qs.length - 1) + k) = 0) ∧
        ((bounds C p n i).getD j 0 ≠ (bounds C p n i).getD (j + 1) 0 →
          IsGreatest {v | ∃ t ∈ hits (bounds C p n i) j (qs.getD k ⊥) (qs.getD (k + 1) ⊥) (at2 X i), at2 X i t = v}
            (at2 Y i (j * (qs.length - 1) + k))) := by
  have hop : ∀ i < m, ∀ j < p.cut.length, ∀ k < qs.length - 1, ∃ v,
      opMax (tab n (at2 X i)) ((bounds C p n i).getD j 0 : ℕ) ((bounds C p n i).getD (j + 1) 0 : ℕ) (qs.getD k ⊥)
        (qs.getD (k + 1) ⊥) = .ok v ∧
      ((bounds C p n i).getD j 0 = (bounds C p n i).getD (j + 1) 0 → v = 0) ∧
        ((bounds C p n i).getD j 0 ≠ (bounds C p n i).getD (j + 1) 0 →
          IsGreatest {v | ∃ t ∈ hits (bounds C p n i) j (qs.getD k ⊥) (qs.getD (k + 1) ⊥) (at2 X i), at2 X i t = v} v) := by
    intro i hi j hj k hk
    unfold opMax
    by_cases he : (bounds C p n i).getD j 0 = (bounds C p n i).getD (j + 1) 0
    · rw [if_pos (by rw [he])]
      exact ⟨0, rfl, fun _ => rfl, fun h => absurd he h⟩
    · rw [if_neg (by exact_mod_cast he)]
      have hb := bounds_le C p n i hp (j + 1)
      obtain ⟨t, ht⟩ := hne i hi j hj k hk he
      have hmem := (mem_band n (bounds C p n i) j hb (qs.getD k ⊥) (qs.getD (k + 1) ⊥) (at2 X i) _).2 ⟨t, ht, rfl⟩
      obtain ⟨M, hM⟩ := listMax_isSome (List.ne_nil_of_mem hmem)
      refine ⟨M, by unfold maxE; rw [hM], fun h => absurd h he, fun _ => ?_⟩
      obtain ⟨h1, h2⟩ := listMax_eq_some.1 hM
      exact ⟨(mem_band n _ j hb _ _ _ _).1 h1, fun y hy => h2 y ((mem_band n _ j hb _ _ _ _).2 hy)⟩
  simp only [Sieve.transformC, Seg.transform]
  rw [hqs, ok_bind]
  exact seg_exists T hT C p opMax X qs hX hC hm hdc hn hp hq _ hop

/-- **C61 (general, MIN).** -/
theorem C61_min_bands (T : FloatText R) (hT : T.Lawful) (C : Data R) (p : Seg R) (X : List (List R)) (qs : List (QVal R))
    {m dc n : ℕ} (hX : HasShape2 X m n) (hC : HasShape C m dc n) (hm : 0 < m) (hdc : 0 < dc) (hn : 0 < n)
    (hp : ∀ c ∈ p.cut, c.InRange n) (hqs : p.useQuantiles = .ok qs) (hq : qs ≠ [])
    (hne : ∀ i < m, ∀ j < p.cut.length, ∀ k < qs.length - 1,
      (bounds C p n i).getD j 0 ≠ (bounds C p n i).getD (j + 1) 0 →
      (hits (bounds C p n i) j (qs.getD k ⊥) (qs.getD (k + 1) ⊥) (at2 X i)).Nonempty) :
    ∃ Y, (Sieve.seg .min p).transformC T C X = .ok Y ∧ HasShape2 Y m (p.cut.length * (qs.length - 1)) ∧
      ∀ i < m, ∀ j < p.cut.length, ∀ k < qs.length - 1,
        ((bounds C p n i).getD j 0 = (bounds C p n i).getD (j + 1) 0 → at2 Y i (j * (qs.length - 1) + k) = 0) ∧
        ((bounds C p n i).getD j 0 ≠ (bounds C p n i).getD (j + 1) 0 →
          IsLeast {v | ∃ t ∈ hits (bounds C p n i) j (qs.getD k ⊥) (qs.getD (k + 1) ⊥) (at2 X i), at2 X i t = v}
            (at2 Y i (j * (qs.length - 1) + k))) := by
  have hop : ∀ i < m, ∀ j < p.cut.length, ∀ k < qs.length - 1, ∃ v,
      opMin (tab n (at2 X i)) ((bounds C p n i).getD j 0 : ℕ) ((bounds C p n i).getD (j + 1) 0 : ℕ) (qs.getD k ⊥)
        (qs.getD (k + 1) ⊥) = .ok v ∧
      ((bounds C p n i).getD j 0 = (bounds C p n i).getD (j + 1) 0 → v = 0) ∧
        ((bounds C p n i).getD j 0 ≠ (bounds C p n i).getD (j + 1) 0 →
          IsLeast {v | ∃ t ∈ hits (bounds C p n i) j (qs.getD k ⊥) (qs.getD (k + 1) ⊥) (at2 X i), at2 X i t = v} v) := by
    intro i hi j hj k hk
    unfold opMin
    by_cases he : (bounds C p n i).getD j 0 = (bounds C p n i).getD (j + 1) 0
    · rw [if_pos (by rw [he])]
      exact ⟨0, rfl, fun _ => rfl, fun h => absurd he h⟩
    · rw [if_neg (by exact_mod_cast he)]
      have hb := bounds_le C p n i hp (j + 1)
      obtain ⟨t, ht⟩ := hne i hi j hj k hk he
      have hmem := (mem_band n (bounds C p n i) j hb (qs.getD k ⊥) (qs.getD (k + 1) ⊥) (at2 X i) _).2 ⟨t, ht, rfl⟩
      obtain ⟨M, hM⟩ := listMin_isSome (List.ne_nil_of_mem hmem)
      refine ⟨M, by unfold minE; rw [hM], fun h => absurd h he, fun _ => ?_⟩
      obtain ⟨h1, h2⟩ := listMin_eq_some.1 hM
      exact ⟨(mem_band n _ j hb _ _ _ _).1 h1, fun y hy => h2 y ((mem_band n _ j hb _ _ _ _).2 hy)⟩
  simp only [Sieve.transformC, Seg.transform]
  rw [hqs, ok_bind]
  exact seg_exists T hT C p opMin X qs hX hC hm hdc hn hp hq _ hop

theorem neg_one_ne_one : (-1 : R) ≠ 1 := by
  have : (-1 : R) < 1 := by linarith [zero_lt_one (α := R)]
  exact this.ne

theorem useQuantiles_default (p : Seg R) (hq : p.q = [-1, 1]) : p.useQuantiles = .ok [⊥, ⊤] := by
  unfold Seg.useQuantiles
  have h1 : p.requiresFitting = false := by simp [Seg.requiresFitting, hq]
  rw [h1]
  simp only [Bool.false_eq_true, if_false, Seg.unfittedQuantiles, hq, List.mapM_cons, List.mapM_nil, unfittedValue]
  rw [if_neg neg_one_ne_one]
  simp

theorem inBand_all (v : R) : InBand (⊥ : QVal R) ⊤ v := ⟨WithBot.bot_lt_coe _, le_top⟩

theorem hits_all (b : List ℕ) (j : ℕ) (x : ℕ → R) : hits b j ⊥ ⊤ x = Finset.Ico (b.getD j 0) (b.getD (j + 1) 0) := by
  unfold hits
  exact Finset.filter_true_of_mem fun t _ => inBand_all _

/-- **C61.** With the default `q`, `MAX` (`MIN`) returns for every non-empty segment the attained maximum (minimum) of the
series in the segment and 0 for an empty one. -/
theorem C61 (T : FloatText R) (hT : T.Lawful) (C : Data R) (p : Seg R) (hq : p.q = [-1, 1]) (X : List (List R))
    {m dc n : ℕ} (hX : HasShape2 X m n) (hC : HasShape C m dc n) (hm : 0 < m) (hdc : 0 < dc) (hn : 0 < n)
    (hp : ∀ c ∈ p.cut, c.InRange n) :
    ∃ Y Z, (Sieve.seg .max p).transformC T C X = .ok Y ∧ HasShape2 Y m p.cut.length ∧
      (Sieve.seg .min p).transformC T C X = .ok Z ∧ HasShape2 Z m p.cut.length ∧
      ∀ i < m, ∀ j < p.cut.length, ∀ a b, a = (bounds C p n i).getD j 0 → b = (bounds C p n i).getD (j + 1) 0 →
        (a = b → at2 Y i j = 0 ∧ at2 Z i j = 0) ∧
        (a ≠ b → a < b ∧ IsGreatest (at2 X i '' Set.Ico a b) (at2 Y i j) ∧ IsLeast (at2 X i '' Set.Ico a b) (at2 Z i j)) := by
  have hu := useQuantiles_default p hq
  have hset : ∀ i j, {v | ∃ t ∈ hits (bounds C p n i) j ⊥ ⊤ (at2 X i), at2 X i t = v}
      = at2 X i '' Set.Ico ((bounds C p n i).getD j 0) ((bounds C p n i).getD (j + 1) 0) := by
    intro i j
    ext v
    simp [hits_all]
  have hne : ∀ i < m, ∀ j < p.cut.length, ∀ k < ([⊥, ⊤] : List (QVal R)).length - 1,
      (bounds C p n i).getD j 0 ≠ (bounds C p n i).getD (j + 1) 0 →
      (hits (bounds C p n i) j (([⊥, ⊤] : List (QVal R)).getD k ⊥) (([⊥, ⊤] : List (QVal R)).getD (k + 1) ⊥)
        (at2 X i)).Nonempty := by
    intro i hi j hj k hk he
    have hk0 : k = 0 := by simp at hk; omega
    subst hk0
    show (hits (bounds C p n i) j ⊥ ⊤ (at2 X i)).Nonempty
    rw [hits_all, Finset.nonempty_Ico]
    exact lt_of_le_of_ne (bounds_mono C p n i (by omega) (by omega)) he
  obtain ⟨Y, hY, hYs, hYv⟩ := C61_max_bands T hT C p X _ hX hC hm hdc hn hp hu (by simp) hne
  obtain ⟨Z, hZ, hZs, hZv⟩ := C61_min_bands T hT C p X _ hX hC hm hdc hn hp hu (by simp) hne
  refine ⟨Y, Z, hY, by simpa using hYs, hZ, by simpa using hZs, ?_⟩
  rintro i hi j hj a b rfl rfl
  obtain ⟨y1, y2⟩ := hYv i hi j hj 0 (by simp)
  obtain ⟨z1, z2⟩ := hZv i hi j hj 0 (by simp)
  simp only [List.length_cons, List.length_nil, Nat.add_zero, List.getD_cons_zero, List.getD_cons_succ, Nat.zero_add,
    Nat.add_one_sub_one, Nat.mul_one, hset] at y1 y2 z1 z2
  refine ⟨fun h => ⟨y1 h, z1 h⟩, fun h => ⟨?_, y2 h, z2 h⟩⟩
  exact lt_of_le_of_ne (bounds_mono C p n i (by omega) (by omega)) h

/-- Non-vacuity, and a band without a value: `MAX(cut=[2,-1])` on `[3,1,2]` gives `[3,2]`; with `q=(-1,0)` numpy's maximum
of an empty array raises. -/
example (T : FloatText ℚ) (hT : T.Lawful) :
    ∃ Y, (Sieve.seg .max ({ cut := [.int 2, .int (-1)], q := [-1, 1] } : Seg ℚ)).transform T [[(3 : ℚ), 1, 2]] = .ok Y ∧
      HasShape2 Y 1 2 := by
  obtain ⟨Y, -, h, hs, -⟩ := C61 T hT (newAxis [[(3 : ℚ), 1, 2]]) { cut := [.int 2, .int (-1)], q := [-1, 1] } rfl [[3, 1, 2]]
    (m := 1) (dc := 1) (n := 3) ⟨rfl, by simp⟩ ⟨rfl, by simp [newAxis]⟩ one_pos one_pos (by norm_num)
    (by simp [Cut.InRange])
  exact ⟨Y, h, hs⟩

example : ((Sieve.seg .max ({ cut := [.int (-1)], q := [-1, 0] } : Seg ℚ)).transform
    (⟨fun _ => [], fun _ => none⟩ : FloatText ℚ) [[(3 : ℚ), 1, 2]]).toOption = none := by
  decide +kernel

/-! ### C62 -/

theorem bounds_eq_cons (C : Data R) (p : Seg R) (n i : ℕ) :
    bounds C p n i = 0 :: (p.cut.map (cutPos C p.norm n i)).insertionSort (· ≤ ·) := by
  unfold bounds
  rw [List.insertionSort_cons]
  cases h : (p.cut.map (cutPos C p.norm n i)).insertionSort (· ≤ ·) with
  | nil => rfl
  | cons a l => rw [List.orderedInsert_cons, if_pos (Nat.zero_le _)]

/-- **C62.** `END(cut)` returns in column `j` the value `x[c-1]`, `c` the `j`-th smallest cut position; a cut position 0 gives
the last value of the series (index -1). -/
theorem C62 (T : FloatText R) (hT : T.Lawful) (C : Data R) (p : Seg R) (X : List (List R)) {m dc n : ℕ}
    (hX : HasShape2 X m n) (hC : HasShape C m dc n) (hm : 0 < m) (hdc : 0 < dc) (hn : 0 < n)
    (hp : ∀ c ∈ p.cut, c.InRange n) :
    ∃ Y, (Sieve.seg .end_ p).transformC T C X = .ok Y ∧ HasShape2 Y m p.cut.length ∧
      ∀ i < m, ∀ j < p.cut.length, ∀ c, c = ((p.cut.map (cutPos C p.norm n i)).insertionSort (· ≤ ·)).getD j 0 →
        (1 ≤ c → c ≤ n ∧ at2 Y i j = at2 X i (c - 1)) ∧ (c = 0 → at2 Y i j = at2 X i (n - 1)) := by
  refine ⟨tab2 m p.cut.length fun i j => at2 X i (if (bounds C p n i).getD (j + 1) 0 = 0 then n - 1
    else (bounds C p n i).getD (j + 1) 0 - 1), ?_, HasShape2.tab2 _ _ _, ?_⟩
  · simp only [Sieve.transformC, Seg.transform]
    rw [hX.1, hX.rowLen_eq hm, cuts_eq T hT C p hC hdc hn hp, ok_bind]
    refine mapM_ok_map fun i hi => ?_
    replace hi := List.mem_range.1 hi
    rw [getD_tab hi, hX.row hi]
    unfold endRow
    rw [List.length_map, bounds_length, Nat.add_sub_cancel]
    refine mapM_ok_map fun j hj => ?_
    rw [getD_map_int]
    have hb := bounds_le C p n i hp (j + 1)
    unfold takeIdx
    rw [tab_length, normIdx_eq ⟨by omega, by omega⟩, ok_bind]
    show Except.ok _ = _
    unfold dimOf
    by_cases h0 : (bounds C p n i).getD (j + 1) 0 = 0
    · rw [h0]
      simp only [if_true]
      rw [if_pos (by simp), getD_tab (by omega)]
      simp only [h0, if_true]
      congr 2; omega
    · beta_reduce
      rw [if_neg h0, if_neg (by omega), getD_tab (by omega)]
      congr 2; omega
  · rintro i hi j hj c rfl
    rw [at2_tab2 hi hj]
    have hb := bounds_le C p n i hp (j + 1)
    rw [bounds_eq_cons] at hb ⊢
    rw [List.getD_cons_succ] at hb ⊢
    constructor
    · intro h1
      rw [if_neg (by omega)]
      exact ⟨hb, rfl⟩
    · intro h0
      rw [if_pos h0]

example : ((Sieve.seg .end_ ({ cut := [.int 2, .int (-1), .int 1], q := [-1, 1] } : Seg ℚ)).transform
    (⟨fun _ => [], fun _ => none⟩ : FloatText ℚ) [[(3 : ℚ), 1, 2]]).toOption = some [[3, 1, 2]] := by
  decide +kernel

/-! ### C63 -/

theorem increments1_incOf (n : ℕ) (x : ℕ → R) : increments1 1 (tab n x) = .ok (tab n (incOf x)) := by
  have h := increments1_tab 1 n one_pos x
  rw [show ((1 : ℕ) : ℤ) = 1 from rfl] at h
  rw [h]
  congr 1
  apply tab_congr
  intro t _
  unfold incOf
  by_cases h0 : t = 0
  · subst h0; rfl
  · rw [if_neg (by omega), if_neg h0]

/-- **C63, the part that holds.** `CUR` returns in column `j * K + k` the sum of the squared second-order increments of
segment `j` that lie in band `k`. -/
theorem C63_cur (T : FloatText R) (hT : T.Lawful) (C : Data R) (p : Seg R) (X : List (List R)) (qs : List (QVal R))
    {m dc n : ℕ} (hX : HasShape2 X m n) (hC : HasShape C m dc n) (hm : 0 < m) (hdc : 0 < dc) (hn : 0 < n)
    (hp : ∀ c ∈ p.cut, c.InRange n) (hqs : p.useQuantiles = .ok qs) (hq : qs ≠ []) :
    ∃ Y, (Sieve.seg .cur p).transformC T C X = .ok Y ∧ HasShape2 Y m (p.cut.length * (qs.length - 1)) ∧
      ∀ i < m, ∀ j < p.cut.length, ∀ k < qs.length - 1, at2 Y i (j * (qs.length - 1) + k)
        = ∑ t ∈ hits (bounds C p n i) j (qs.getD k ⊥) (qs.getD (k + 1) ⊥) (incOf (incOf (at2 X i))),
            incOf (incOf (at2 X i)) t ^ 2 := by
  simp only [Sieve.transformC, Seg.transform]
  have hA : X.mapM secondIncrements = .ok (tab2 m n fun i => incOf (incOf (at2 X i))) := by
    conv_lhs => rw [hX.eq_tab]
    refine mapM_ok_tab fun i hi => ?_
    unfold secondIncrements
    rw [increments1_incOf, ok_bind, increments1_incOf]
  rw [hqs, ok_bind, hX.1, hX.rowLen_eq hm, cuts_eq T hT C p hC hdc hn hp, ok_bind, hA, ok_bind]
  have h := seg_exists T hT C p opCur (tab2 m n fun i => incOf (incOf (at2 X i))) qs (HasShape2.tab2 _ _ _) hC hm hdc hn hp hq
    (fun i j k v => v = ∑ t ∈ hits (bounds C p n i) j (qs.getD k ⊥) (qs.getD (k + 1) ⊥) (incOf (incOf (at2 X i))),
            incOf (incOf (at2 X i)) t ^ 2) (by
      intro i hi j hj k hk
      refine ⟨_, rfl, ?_⟩
      have e : tab n (at2 (tab2 m n fun i => incOf (incOf (at2 X i))) i) = tab n (incOf (incOf (at2 X i))) :=
        tab_congr fun t ht => at2_tab2 hi ht
      rw [e]
      exact band_sum n _ j (bounds_le C p n i hp _) _ _ _ _ (fun v => v ^ 2) fun t => rfl)
  rw [(HasShape2.tab2 m n _).1, (HasShape2.tab2 m n _).rowLen_eq hm, cuts_eq T hT C p hC hdc hn hp, ok_bind] at h
  exact h

/-- **C63, CUR.** With the default `q`, the whole sum of squared second-order increments of every segment. -/
theorem C63_cur_partial (T : FloatText R) (hT : T.Lawful) (C : Data R) (p : Seg R) (hq : p.q = [-1, 1]) (X : List (List R))
    {m dc n : ℕ} (hX : HasShape2 X m n) (hC : HasShape C m dc n) (hm : 0 < m) (hdc : 0 < dc) (hn : 0 < n)
    (hp : ∀ c ∈ p.cut, c.InRange n) :
    ∃ Y, (Sieve.seg .cur p).transformC T C X = .ok Y ∧ HasShape2 Y m p.cut.length ∧
      ∀ i < m, ∀ j < p.cut.length, at2 Y i j
        = ∑ t ∈ Finset.Ico ((bounds C p n i).getD j 0) ((bounds C p n i).getD (j + 1) 0), incOf (incOf (at2 X i)) t ^ 2 := by
  obtain ⟨Y, h, hs, hv⟩ := C63_cur T hT C p X _ hX hC hm hdc hn hp (useQuantiles_default p hq) (by simp)
  refine ⟨Y, h, by simpa using hs, fun i hi j hj => ?_⟩
  have := hv i hi j hj 0 (by simp)
  simpa [hits_all] using this

/-- What is missing: `AVG` and `STD` return the same as `CUR`; on `[1,2,4]` this is 2, while the mean is 7/3 and the variance
14/9. -/
theorem C63_avg_std_are_cur (T : FloatText R) (C : Data R) (p : Seg R) (X : List (List R)) :
    (Sieve.seg .avg p).transformC T C X = (Sieve.seg .cur p).transformC T C X ∧
    (Sieve.seg .std p).transformC T C X = (Sieve.seg .cur p).transformC T C X := ⟨rfl, rfl⟩

theorem C63_counterexample :
    ((Sieve.seg .avg ({ q := [-1, 1] } : Seg ℚ)).transform (⟨fun _ => [], fun _ => none⟩ : FloatText ℚ) [[(1 : ℚ), 2, 4]]).toOption
      = some [[2]] ∧ mean [(1 : ℚ), 2, 4] ≠ 2 ∧
    ((Sieve.seg .std ({ q := [-1, 1] } : Seg ℚ)).transform (⟨fun _ => [], fun _ => none⟩ : FloatText ℚ) [[(1 : ℚ), 2, 4]]).toOption
      = some [[2]] ∧ variance [(1 : ℚ), 2, 4] ≠ 2 ^ 2 := by
  decide +kernel

end Fruits
