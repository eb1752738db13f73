import Verif.CorbPlot
import Verif.Props.Corb11
import Verif.Props.Prep10
import Verif.Props.Corb5

/-! # C143-C145: the lines of `plot`, `scatter_features` and `test_classifier` -/

namespace Fruits
set_option linter.unusedSectionVars false

variable {R P I W S V T : Type} [Field R] [LinearOrder R] [IsStrictOrderedRing R] [FloorRing R]

/-! ### Specification -/

/-- The numbers of the samples of class `c`, in increasing order. -/
def membersOf (y : List ℤ) (c : ℤ) : List ℕ := (List.range y.length).filter fun k => y.getD k 0 = c

/-- The classes of `y`, each once, in increasing order. -/
def IsClasses (y cs : List ℤ) : Prop := cs.Pairwise (· < ·) ∧ ∀ c, c ∈ cs ↔ c ∈ y

theorem sortedClasses_isClasses (y : List ℤ) : IsClasses y (sortedClasses y) := by
  refine ⟨?_, fun c => mem_sortedClasses⟩
  have h1 : (sortedClasses y).Pairwise (· ≤ ·) := by
    have := List.pairwise_mergeSort (le := fun a b : ℤ => decide (a ≤ b)) (fun a b c => by simpa using le_trans) (fun a b => by simpa using le_total a b) y.dedup
    simpa [sortedClasses] using this
  have h2 : (sortedClasses y).Nodup := (List.mergeSort_perm _ _).nodup_iff.2 (List.nodup_dedup y)
  exact (h1.and h2).imp fun {a b} h => lt_of_le_of_ne h.1 h.2

/-- The order of the classes is determined. -/
theorem IsClasses.unique {y cs ds : List ℤ} (h : IsClasses y cs) (h' : IsClasses y ds) : cs = ds := by
  have hp : cs.Perm ds := (List.perm_ext_iff_of_nodup (h.1.imp fun {a b} => ne_of_lt) (h'.1.imp fun {a b} => ne_of_lt)).2 fun c => by rw [h.2, h'.2]
  exact hp.eq_of_pairwise (fun a b _ _ h1 h2 => absurd h2 (not_lt.2 h1.le)) h.1 h'.1

theorem rowsOfClass_eq {α : Type} (X : List α) (y : List ℤ) (c : ℤ) (d : α) (h : y.length = X.length) :
    rowsOfClass X y c = (membersOf y c).map fun k => X.getD k d := by
  unfold rowsOfClass membersOf
  have hz : X.zip y = (List.range y.length).map fun k => (X.getD k d, y.getD k 0) := by
    apply List.ext_getElem
    · simp [h]
    · intro k h1 h2
      have hk : k < y.length := by simpa using h2
      simp [List.getD, hk, h ▸ hk]
  rw [hz, List.filter_map, List.map_map]
  rfl

theorem mem_membersOf {y : List ℤ} {c : ℤ} {k : ℕ} : k ∈ membersOf y c ↔ k < y.length ∧ y.getD k 0 = c := by
  simp [membersOf]

theorem membersOf_ne_nil {y : List ℤ} {c : ℤ} (h : c ∈ y) : membersOf y c ≠ [] := by
  obtain ⟨k, hk, rfl⟩ := List.getElem_of_mem h
  exact List.ne_nil_of_mem (mem_membersOf.2 ⟨hk, getD_getElem hk⟩)


/-! ### C143: plot -/

/-- The line of a class in a plot of means: the number of the class, the mean of its series at each time and, if wanted, the largest and the smallest
value at each time. -/
structure IsMeanLine (X : List (List R)) (y : List ℤ) (n : ℕ) (bounds : Bool) (c : ℤ) (i : ℕ) (l : Line R) : Prop where
  number : l.cls = some i
  size : l.series.length = n
  mean : ∀ t < n, l.series.getD t 0 * ((membersOf y c).length : R) = ((membersOf y c).map fun k => (X.getD k []).getD t 0).sum
  none : bounds = false → l.bounds = none
  bounds : bounds = true → ∃ hi lo, l.bounds = some (hi, lo) ∧ hi.length = n ∧ lo.length = n ∧
    ∀ t < n, IsGreatest {v | ∃ k ∈ membersOf y c, v = (X.getD k []).getD t 0} (hi.getD t 0) ∧
      IsLeast {v | ∃ k ∈ membersOf y c, v = (X.getD k []).getD t 0} (lo.getD t 0) ∧ lo.getD t 0 ≤ l.series.getD t 0 ∧ l.series.getD t 0 ≤ hi.getD t 0

theorem foldl_max_spec {α : Type} (f : α → R) (a : R) (l : List α) :
    IsGreatest ({a} ∪ {v | ∃ x ∈ l, v = f x}) (l.foldl (fun acc x => max acc (f x)) a) := by
  induction l generalizing a with
  | nil => exact ⟨Or.inl rfl, by rintro v (rfl | ⟨x, hx, _⟩); exacts [le_rfl, absurd hx (List.not_mem_nil)]⟩
  | cons x l ih =>
    obtain ⟨h1, h2⟩ := ih (max a (f x))
    rw [List.foldl_cons]
    constructor
    · rcases h1 with h1 | ⟨z, hz, h1⟩
      · rw [Set.mem_singleton_iff.1 h1]
        rcases max_choice a (f x) with h | h <;> rw [h]
        · exact Or.inl rfl
        · exact Or.inr ⟨x, by simp, rfl⟩
      · exact Or.inr ⟨z, by simp [hz], h1⟩
    · have h3 := h2 (Or.inl rfl)
      rintro v (rfl | ⟨z, hz, rfl⟩)
      · exact (le_max_left _ _).trans h3
      · rcases List.mem_cons.1 hz with rfl | hz
        · exact (le_max_right _ _).trans h3
        · exact h2 (Or.inr ⟨z, hz, rfl⟩)

theorem foldl_min_spec {α : Type} (f : α → R) (a : R) (l : List α) :
    IsLeast ({a} ∪ {v | ∃ x ∈ l, v = f x}) (l.foldl (fun acc x => min acc (f x)) a) := by
  induction l generalizing a with
  | nil => exact ⟨Or.inl rfl, by rintro v (rfl | ⟨x, hx, _⟩); exacts [le_rfl, absurd hx (List.not_mem_nil)]⟩
  | cons x l ih =>
    obtain ⟨h1, h2⟩ := ih (min a (f x))
    rw [List.foldl_cons]
    constructor
    · rcases h1 with h1 | ⟨z, hz, h1⟩
      · rw [Set.mem_singleton_iff.1 h1]
        rcases min_choice a (f x) with h | h <;> rw [h]
        · exact Or.inl rfl
        · exact Or.inr ⟨x, by simp, rfl⟩
      · exact Or.inr ⟨z, by simp [hz], h1⟩
    · have h3 := h2 (Or.inl rfl)
      rintro v (rfl | ⟨z, hz, rfl⟩)
      · exact h3.trans (min_le_left _ _)
      · rcases List.mem_cons.1 hz with rfl | hz
        · exact h3.trans (min_le_right _ _)
        · exact h2 (Or.inr ⟨z, hz, rfl⟩)

theorem head_set {α : Type} (g : α → R) (x : α) (l : List α) : ({g x} ∪ {v | ∃ z ∈ l, v = g z} : Set R) = {v | ∃ z ∈ x :: l, v = g z} := by
  ext v
  simp only [Set.mem_union, Set.mem_singleton_iff, Set.mem_setOf_eq, List.mem_cons, exists_eq_or_imp]

theorem sum_between (l : List R) {lo hi : R} (h1 : ∀ v ∈ l, lo ≤ v) (h2 : ∀ v ∈ l, v ≤ hi) :
    lo * (l.length : R) ≤ l.sum ∧ l.sum ≤ hi * (l.length : R) := by
  induction l with
  | nil => simp
  | cons v l ih =>
    obtain ⟨a, b⟩ := ih (fun v hv => h1 v (by simp [hv])) fun v hv => h2 v (by simp [hv])
    have c := h1 v (by simp)
    have d := h2 v (by simp)
    simp only [List.length_cons, List.sum_cons, Nat.cast_succ]
    constructor <;> linarith

/-- **C143**, `mean=True`: one line for each class in increasing order of the classes: the mean of its series, within the bounds. -/
theorem C143_mean (X : List (List R)) (y : List ℤ) (n nseries : ℕ) (bounds perClass : Bool) (hlen : y.length = X.length) (hrect : ∀ r ∈ X, r.length = n) :
    ∃ cs ls, IsClasses y cs ∧ plotLines true bounds nseries perClass X y = .ok ls ∧ ls.length = cs.length ∧
      ∀ (i : ℕ) (h : i < ls.length) (h' : i < cs.length), IsMeanLine X y n bounds cs[i] i ls[i] := by
  refine ⟨sortedClasses y, _, sortedClasses_isClasses y, rfl, by simp, fun i h h' => ?_⟩
  simp only [List.getElem_map, List.getElem_zipIdx, Nat.zero_add]
  have hc : (sortedClasses y)[i] ∈ y := mem_sortedClasses.1 (List.getElem_mem _)
  generalize (sortedClasses y)[i] = c at hc
  obtain ⟨k₀, ms, hm⟩ := List.exists_cons_of_ne_nil (membersOf_ne_nil hc)
  have hrows : rowsOfClass X y c = X.getD k₀ [] :: ms.map fun k => X.getD k [] := by
    rw [rowsOfClass_eq X y c [] hlen, hm]; rfl
  have hk₀ : k₀ < X.length := by
    have := (mem_membersOf.1 (hm ▸ List.mem_cons_self : k₀ ∈ membersOf y c)).1
    omega
  have hl : (X.getD k₀ []).length = n := by rw [getD_getElem hk₀]; exact hrect _ (List.getElem_mem _)
  have hpos : (0 : R) < ((membersOf y c).length : R) := by rw [hm]; simp; positivity
  have hmean : ∀ t < n, (meanRow (rowsOfClass X y c)).getD t 0 * ((membersOf y c).length : R) = ((membersOf y c).map fun k => (X.getD k []).getD t 0).sum := by
    intro t ht
    have h1 : ((rowsOfClass X y c).getD 0 []).length = n := by rw [hrows]; simpa using hl
    rw [meanRow, h1, tab_getD _ _ _ _ ht]
    have h2 : (rowsOfClass X y c).length = (membersOf y c).length := by rw [rowsOfClass_eq X y c [] hlen, List.length_map]
    rw [h2, div_mul_cancel₀ _ hpos.ne', rowsOfClass_eq X y c [] hlen, List.map_map]
    rfl
  have hsize : (meanRow (rowsOfClass X y c)).length = n := by rw [meanRow, hrows]; simpa using hl
  refine ⟨rfl, hsize, hmean, fun hb => by simp [hb], fun hb => ⟨foldRow max (rowsOfClass X y c), foldRow min (rowsOfClass X y c), if_pos hb, ?_, ?_, fun t ht => ?_⟩⟩
  · rw [foldRow, hrows]; simpa using hl
  · rw [foldRow, hrows]; simpa using hl
  · have hset : ({(X.getD k₀ []).getD t 0} ∪ {v | ∃ r ∈ ms.map fun k => X.getD k [], v = r.getD t 0} : Set R) =
        {v | ∃ k ∈ membersOf y c, v = (X.getD k []).getD t 0} := by
      rw [hm, ← head_set (fun k => (X.getD k []).getD t 0)]
      simp
    have hmax := foldl_max_spec (fun r : List R => r.getD t 0) ((X.getD k₀ []).getD t 0) (ms.map fun k => X.getD k [])
    have hmin := foldl_min_spec (fun r : List R => r.getD t 0) ((X.getD k₀ []).getD t 0) (ms.map fun k => X.getD k [])
    rw [hset] at hmax hmin
    have e1 : (foldRow max (rowsOfClass X y c)).getD t 0 = (ms.map fun k => X.getD k []).foldl (fun acc r => max acc (r.getD t 0)) ((X.getD k₀ []).getD t 0) := by
      rw [foldRow, hrows]
      rw [tab_getD _ _ _ _ (by rw [show ((X.getD k₀ [] :: ms.map fun k => X.getD k []).getD 0 []) = X.getD k₀ [] from rfl, hl]; exact ht)]
      simp
    have e2 : (foldRow min (rowsOfClass X y c)).getD t 0 = (ms.map fun k => X.getD k []).foldl (fun acc r => min acc (r.getD t 0)) ((X.getD k₀ []).getD t 0) := by
      rw [foldRow, hrows]
      rw [tab_getD _ _ _ _ (by rw [show ((X.getD k₀ [] :: ms.map fun k => X.getD k []).getD 0 []) = X.getD k₀ [] from rfl, hl]; exact ht)]
      simp
    rw [e1, e2]
    refine ⟨hmax, hmin, ?_, ?_⟩
    all_goals
      have hb := sum_between ((membersOf y c).map fun k => (X.getD k []).getD t 0)
        (by intro v hv; obtain ⟨k, hk, rfl⟩ := List.mem_map.1 hv; exact hmin.2 ⟨k, hk, rfl⟩)
        (by intro v hv; obtain ⟨k, hk, rfl⟩ := List.mem_map.1 hv; exact hmax.2 ⟨k, hk, rfl⟩)
      rw [← hmean t ht, List.length_map] at hb
    · exact le_of_mul_le_mul_right hb.1 hpos
    · exact le_of_mul_le_mul_right hb.2 hpos

theorem mapM_pyAt_range {α : Type} (l : List α) (n : ℕ) :
    (List.range n).mapM (fun j => pyAt l ((j : ℕ) : ℤ)) = if n ≤ l.length then Except.ok (l.take n) else .error .indexError := by
  induction n with
  | zero => simp; rfl
  | succ n ih =>
    rw [List.range_succ, List.mapM_append, ih]
    by_cases h : n ≤ l.length
    · rw [if_pos h]
      by_cases h' : n + 1 ≤ l.length
      · rw [if_pos h']
        have : pyAt l ((n : ℕ) : ℤ) = .ok l[n] := pyAt_of (by simp [List.getElem?_eq_getElem (show n < l.length by omega)])
        simp only [ok_bind, List.mapM_cons, List.mapM_nil, this]
        rw [List.take_succ_eq_append_getElem (by omega)]
        rfl
      · rw [if_neg h']
        have : pyAt l ((n : ℕ) : ℤ) = .error .indexError := by
          unfold pyAt
          simp [List.getElem?_eq_none (show l.length ≤ n by omega)]
        simp only [ok_bind, List.mapM_cons, this]
        rfl
    · rw [if_neg h, if_neg (by omega)]
      rfl


/-- A loop whose steps either succeed or raise always the same exception. -/
theorem mapM_ite {α β : Type} {f : α → Except Err β} {p : α → Prop} [DecidablePred p] {g : α → β} {e : Err} {l : List α}
    (h : ∀ x ∈ l, f x = if p x then .ok (g x) else .error e) : ((∀ x ∈ l, p x) → l.mapM f = .ok (l.map g)) ∧ ((∃ x ∈ l, ¬ p x) → l.mapM f = .error e) := by
  induction l with
  | nil => exact ⟨fun _ => rfl, by rintro ⟨x, hx, _⟩; cases hx⟩
  | cons x l ih =>
    obtain ⟨ih1, ih2⟩ := ih fun z hz => h z (by simp [hz])
    have hx := h x (by simp)
    constructor
    · intro hp
      rw [List.mapM_cons, hx, if_pos (hp x (by simp)), ok_bind, ih1 fun z hz => hp z (by simp [hz])]
      rfl
    · intro hp
      rw [List.mapM_cons, hx]
      by_cases hpx : p x
      · rw [if_pos hpx, ok_bind, ih2 ?_]
        · rfl
        · obtain ⟨z, hz, hn⟩ := hp
          rcases List.mem_cons.1 hz with rfl | hz
          · exact absurd hpx hn
          · exact ⟨z, hz, hn⟩
      · rw [if_neg hpx]
        rfl

theorem mapM_line {α : Type} (l : List α) (n : ℕ) (mk : α → Line R) :
    (List.range n).mapM (fun j => do let x ← pyAt l ((j : ℕ) : ℤ); pure (mk x)) =
      if n ≤ l.length then Except.ok ((l.take n).map mk) else .error .indexError := by
  have : (List.range n).mapM (fun j => do let x ← pyAt l ((j : ℕ) : ℤ); pure (mk x)) =
      (do let xs ← (List.range n).mapM (fun j => pyAt l ((j : ℕ) : ℤ)); pure (xs.map mk) : Except Err (List (Line R))) := by
    generalize List.range n = r
    induction r with
    | nil => rfl
    | cons j r ih =>
      rw [List.mapM_cons, List.mapM_cons, ih]
      cases pyAt l ((j : ℕ) : ℤ) with
      | error e => rfl
      | ok x =>
        simp only [ok_bind, pure_bind, bind_assoc]
        cases r.mapM (fun j => pyAt l ((j : ℕ) : ℤ)) <;> rfl
  rw [this, mapM_pyAt_range]
  split <;> rfl

/-- **C143**, `mean=False, per_class=True`: the first `nseries` series of each class, in increasing order of the classes; an `IndexError` exactly if
a class has fewer. -/
theorem C143_per_class (X : List (List R)) (y : List ℤ) (nseries : ℕ) (bounds : Bool) (hlen : y.length = X.length) :
    ∃ cs, IsClasses y cs ∧
      ((∀ c ∈ y, nseries ≤ (membersOf y c).length) → plotLines false bounds nseries true X y =
        .ok (cs.zipIdx.flatMap fun p => ((membersOf y p.1).take nseries).map fun k => ⟨some p.2, X.getD k [], none⟩)) ∧
      ((∃ c ∈ y, (membersOf y c).length < nseries) → plotLines false bounds nseries true X y = .error .indexError) := by
  refine ⟨sortedClasses y, sortedClasses_isClasses y, ?_⟩
  obtain ⟨h1, h2⟩ := mapM_ite (l := (sortedClasses y).zipIdx) (e := .indexError) (p := fun p => nseries ≤ (membersOf y p.1).length)
    (f := fun c => (List.range nseries).mapM fun (j : ℕ) => do
      let x ← pyAt (rowsOfClass X y c.1) ((j : ℕ) : ℤ)
      pure (⟨some c.2, x, none⟩ : Line R))
    (g := fun p => ((membersOf y p.1).take nseries).map fun k => ⟨some p.2, X.getD k [], none⟩) (by
      intro p _
      rw [mapM_line (rowsOfClass X y p.1) nseries fun x => ⟨some p.2, x, none⟩, rowsOfClass_eq X y p.1 [] hlen, List.length_map, ← List.map_take, List.map_map]
      rfl)
  constructor
  · intro h
    have := h1 fun p hp => h p.1 (mem_sortedClasses.1 (by
      obtain ⟨i, hi, rfl⟩ := List.getElem_of_mem hp
      simp))
    simp only [plotLines, Bool.false_eq_true, if_false, if_true, this, ok_bind]
    rw [List.flatMap_def]
    rfl
  · rintro ⟨c, hc, hlt⟩
    have := h2 (by
      obtain ⟨i, hi, hi'⟩ := List.getElem_of_mem (mem_sortedClasses.2 hc)
      exact ⟨(c, i), by rw [List.mem_zipIdx_iff_getElem?]; simp [List.getElem?_eq_getElem hi, hi'], by simpa using hlt⟩)
    simp only [plotLines, Bool.false_eq_true, if_false, if_true, this]
    rfl

/-- **C143**, `mean=False, per_class=False`: the first `nseries` series; an `IndexError` exactly if there are fewer. -/
theorem C143_first (X : List (List R)) (y : List ℤ) (nseries : ℕ) (bounds : Bool) :
    plotLines false bounds nseries false X y = if nseries ≤ X.length then .ok ((X.take nseries).map fun x => ⟨none, x, none⟩) else .error .indexError := by
  simp only [plotLines, Bool.false_eq_true, if_false]
  exact mapM_line X nseries fun x => ⟨none, x, none⟩

/-- **C143**: the legend names the class if the classes are `1`, `2`, ..., `k`. -/
theorem C143_legend_partial {y cs : List ℤ} (h : IsClasses y cs) {k : ℕ} (hy : ∀ c : ℤ, c ∈ y ↔ 1 ≤ c ∧ c ≤ k) (i : ℕ) (hi : i < cs.length) :
    legendText i = "Class ".toList ++ showInt cs[i] := by
  have hcs : IsClasses y ((List.range k).map fun j => ((j + 1 : ℕ) : ℤ)) := by
    refine ⟨?_, fun c => ?_⟩
    · rw [List.pairwise_map]
      exact List.pairwise_lt_range.imp fun {a b} hab => by exact_mod_cast Nat.succ_lt_succ hab
    · rw [hy]
      simp only [List.mem_map, List.mem_range]
      constructor
      · rintro ⟨j, hj, rfl⟩; omega
      · rintro ⟨h1, h2⟩
        exact ⟨c.toNat - 1, by omega, by omega⟩
  have := h.unique hcs
  subst this
  simp only [List.getElem_map, List.getElem_range]
  rfl

/-- **C143 is false for other classes**: with the classes 0 and 1 the series of class 0 has the legend `Class 1`. -/
theorem C143_legend_false :
    plotLines false false 1 true [[5, 6], [7, 8]] [0, 1] = .ok [(⟨some 0, [5, 6], none⟩ : Line ℚ), ⟨some 1, [7, 8], none⟩] ∧
      legendText 0 = "Class 1".toList := by
  refine ⟨?_, by decide⟩
  obtain ⟨cs, h1, h2, _⟩ := C143_per_class (R := ℚ) [[5, 6], [7, 8]] [0, 1] 1 false rfl
  have : cs = [0, 1] := h1.unique ⟨by decide, fun c => Iff.rfl⟩
  subst this
  rw [h2 (by decide)]
  rfl

/-- Non-vacuity of C143: means and bounds of two classes. -/
example : ∃ l₀ l₁ : Line ℚ, plotLines true true 0 true [[1, 2], [5, 0], [3, 4]] [1, 2, 1] = .ok [l₀, l₁] ∧
    IsMeanLine [[1, 2], [5, 0], [3, 4]] [1, 2, 1] 2 true 1 0 l₀ ∧ IsMeanLine [[1, 2], [5, 0], [3, 4]] [1, 2, 1] 2 true 2 1 l₁ := by
  obtain ⟨cs, ls, h1, h2, h3, h4⟩ := C143_mean (R := ℚ) [[1, 2], [5, 0], [3, 4]] [1, 2, 1] 2 0 true true rfl (by decide)
  have : cs = [1, 2] := h1.unique ⟨by decide, fun c => by simp; tauto⟩
  subst this
  match ls, h3 with
  | [l₀, l₁], _ => exact ⟨l₀, l₁, h2, h4 0 (by simp) (by simp), h4 1 (by simp) (by simp)⟩

/-! ### C144: scatter_features -/

theorem scatterLoop_spec (ex ey x y : List R) (target cs : List ℤ) (bx by_ : Option (List ℕ)) :
    (scatterLoop ex ey x y target cs bx by_).length = cs.length ∧
      ∀ (i : ℕ) (h : i < (scatterLoop ex ey x y target cs bx by_).length) (h' : i < cs.length),
        ((scatterLoop ex ey x y target cs bx by_)[i]).label = cs[i] ∧
        ((scatterLoop ex ey x y target cs bx by_)[i]).xs = rowsOfClass x target cs[i] ∧
        ((scatterLoop ex ey x y target cs bx by_)[i]).ys = rowsOfClass y target cs[i] ∧
        ((scatterLoop ex ey x y target cs bx by_)[i]).barsx = histCounts ex (rowsOfClass x target cs[i]) ∧
        ((scatterLoop ex ey x y target cs bx by_)[i]).barsy = histCounts ey (rowsOfClass y target cs[i]) ∧
        ((scatterLoop ex ey x y target cs bx by_)[i]).bottomx = (if i = 0 then bx else some (histCounts ex (rowsOfClass x target (cs.getD (i - 1) 0)))) ∧
        ((scatterLoop ex ey x y target cs bx by_)[i]).bottomy = (if i = 0 then by_ else some (histCounts ey (rowsOfClass y target (cs.getD (i - 1) 0)))) := by
  induction cs generalizing bx by_ with
  | nil => exact ⟨rfl, fun i h => absurd h (by simp [scatterLoop])⟩
  | cons c cs ih =>
    obtain ⟨h1, h2⟩ := ih (some (histCounts ex (rowsOfClass x target c))) (some (histCounts ey (rowsOfClass y target c)))
    refine ⟨by simp [scatterLoop, h1], fun i h h' => ?_⟩
    cases i with
    | zero => exact ⟨rfl, rfl, rfl, rfl, rfl, rfl, rfl⟩
    | succ i =>
      obtain ⟨a, b, c', d, e, f, g⟩ := h2 i (by simpa [scatterLoop] using h) (by simpa using h')
      refine ⟨a, b, c', d, e, ?_, ?_⟩
      · rw [if_neg (by omega)]
        refine f.trans ?_
        cases i <;> rfl
      · rw [if_neg (by omega)]
        refine g.trans ?_
        cases i <;> rfl

/-- The sum of the heights of the bars in column `k` of the first `i` groups. -/
def barsBelow (bars : List (List ℕ)) (i k : ℕ) : ℕ := ((bars.take i).map fun b => b.getD k 0).sum

/-- Every value between the first and the last of increasing edges belongs to exactly one bar. -/
theorem one_bar {e : ℕ → R} {m : ℕ} (hm : 0 < m) (hmono : ∀ k, k < m → e k ≤ e (k + 1)) {x : R} (h0 : e 0 ≤ x) (h1 : x ≤ e m) :
    ∃! k, k < m ∧ (e k ≤ x ∧ (x < e (k + 1) ∨ (k + 1 = m ∧ x ≤ e (k + 1)))) := by
  have mono : ∀ a b, a ≤ b → b ≤ m → e a ≤ e b := by
    intro a b hab
    induction hab with
    | refl => intro _; exact le_rfl
    | step hab ih => intro hb; exact (ih (by omega)).trans (hmono _ (by omega))
  have hex : ∃ k, k < m ∧ (e k ≤ x ∧ (x < e (k + 1) ∨ (k + 1 = m ∧ x ≤ e (k + 1)))) := by
    by_contra hno
    push Not at hno
    have : ∀ k, k < m → e k ≤ x := by
      intro k
      induction k with
      | zero => intro _; exact h0
      | succ k ih =>
        intro hk
        exact (hno k (by omega) (ih (by omega))).1
    obtain ⟨m, rfl⟩ : ∃ j, m = j + 1 := ⟨m - 1, by omega⟩
    exact absurd h1 (not_le.2 ((hno m (by omega) (this m (by omega))).2 rfl))
  obtain ⟨k, hk, hk1, hk2⟩ := hex
  refine ⟨k, ⟨hk, hk1, hk2⟩, ?_⟩
  rintro j ⟨hj, hj1, hj2⟩
  by_contra hne
  rcases lt_or_gt_of_ne hne with h | h
  · rcases hj2 with h3 | ⟨h3, _⟩
    · exact absurd (h3.trans_le (mono (j + 1) k h hk.le)) (not_lt.2 hk1)
    · omega
  · rcases hk2 with h3 | ⟨h3, _⟩
    · exact absurd (h3.trans_le (mono (k + 1) j h hj.le)) (not_lt.2 hj1)
    · omega

theorem sum_countP_unique {α : Type} {m : ℕ} {p : ℕ → α → Bool} {l : List α} (h : ∀ x ∈ l, ∃! k, k < m ∧ p k x = true) :
    ((List.range m).map fun k => l.countP (p k)).sum = l.length := by
  induction l with
  | nil => simp
  | cons x l ih =>
    simp only [List.countP_cons, List.length_cons]
    rw [List.sum_map_add, ih fun z hz => h z (by simp [hz])]
    congr 1
    obtain ⟨k, ⟨hk, hk1⟩, hu⟩ := h x (by simp)
    have : ∀ j, j < m → ((if p j x = true then 1 else 0 : ℕ) = if j = k then 1 else 0) := by
      intro j hj
      by_cases hjk : j = k
      · rw [hjk, if_pos hk1, if_pos rfl]
      · rw [if_neg fun hp => hjk (hu j ⟨hj, hp⟩), if_neg hjk]
    have h2 : ((List.range m).map fun j => (if p j x = true then 1 else 0 : ℕ)) = (List.range m).map fun j => if j = k then 1 else 0 :=
      List.map_congr_left fun j hj => this j (List.mem_range.1 hj)
    rw [h2]
    have h3 := Finset.sum_ite_eq' (Finset.range m) k fun _ => (1 : ℕ)
    rw [if_pos (Finset.mem_range.2 hk)] at h3
    refine Eq.trans ?_ h3
    rw [Finset.sum_range, ← List.sum_ofFn]
    congr 1
    apply List.ext_getElem <;> simp

theorem colMin_le (l : List R) {x : R} (h : x ∈ l) : colMin l ≤ x := by
  cases l with
  | nil => cases h
  | cons a l =>
    have := (foldl_min_spec (fun z : R => z) a l).2
    rcases List.mem_cons.1 h with rfl | h
    · exact this (Or.inl rfl)
    · exact this (Or.inr ⟨x, h, rfl⟩)

theorem le_colMax (l : List R) {x : R} (h : x ∈ l) : x ≤ colMax l := by
  cases l with
  | nil => cases h
  | cons a l =>
    have := (foldl_max_spec (fun z : R => z) a l).2
    rcases List.mem_cons.1 h with rfl | h
    · exact this (Or.inl rfl)
    · exact this (Or.inr ⟨x, h, rfl⟩)

/-- The bars of some values of a column count each value once. -/
theorem histCounts_sum {col xs : List R} (h : ∀ x ∈ xs, x ∈ col) {nbins : ℕ} (hn : 2 ≤ nbins) :
    (histCounts (linspace (colMin col) (colMax col) nbins) xs).sum = xs.length ∧
      (histCounts (linspace (colMin col) (colMax col) nbins) xs).length = nbins - 1 := by
  have hl : (linspace (colMin col) (colMax col) nbins).length = nbins := by simp [linspace]
  refine ⟨?_, by simp [histCounts, hl]⟩
  unfold histCounts
  rw [hl, tab]
  refine sum_countP_unique fun x hx => ?_
  have hd : (0 : R) < ((nbins - 1 : ℕ) : R) := by exact_mod_cast (by omega : 0 < nbins - 1)
  have e : ∀ k, k < nbins → (linspace (colMin col) (colMax col) nbins).getD k 0 = colMin col + (k : R) * ((colMax col - colMin col) / ((nbins - 1 : ℕ) : R)) := by
    intro k hk
    rw [linspace, tab_getD _ _ _ _ hk]
  have hle : colMin col ≤ colMax col := (colMin_le col (h x hx)).trans (le_colMax col (h x hx))
  have hstep : 0 ≤ (colMax col - colMin col) / ((nbins - 1 : ℕ) : R) := div_nonneg (by linarith) hd.le
  obtain ⟨k, hk, hu⟩ := one_bar (e := fun k => (linspace (colMin col) (colMax col) nbins).getD k 0) (m := nbins - 1) (by omega)
    (by
      intro k hk
      rw [e k (by omega), e (k + 1) (by omega)]
      push_cast
      linarith)
    (x := x) (by rw [e 0 (by omega)]; simpa using colMin_le col (h x hx))
    (by
      rw [e (nbins - 1) (by omega), mul_div_cancel₀ _ hd.ne']
      simpa using le_colMax col (h x hx))
  have hiff : ∀ j, (j + 1 = nbins - 1 ↔ j + 2 = nbins) := fun j => by omega
  simp only [hiff] at hk hu
  exact ⟨k, by simpa using hk, fun j hj => hu j (by simpa using hj)⟩


theorem colMin_spec {l : List R} (h : l ≠ []) : IsLeast {v | v ∈ l} (colMin l) := by
  obtain ⟨a, l, rfl⟩ := List.exists_cons_of_ne_nil h
  refine ⟨?_, fun v hv => colMin_le _ hv⟩
  rcases (foldl_min_spec (fun z : R => z) a l).1 with h | ⟨z, hz, h⟩
  · exact List.mem_cons.2 (Or.inl h)
  · exact List.mem_cons.2 (Or.inr (by simpa only [colMin, h] using hz))

theorem colMax_spec {l : List R} (h : l ≠ []) : IsGreatest {v | v ∈ l} (colMax l) := by
  obtain ⟨a, l, rfl⟩ := List.exists_cons_of_ne_nil h
  refine ⟨?_, fun v hv => le_colMax _ hv⟩
  rcases (foldl_max_spec (fun z : R => z) a l).1 with h | ⟨z, hz, h⟩
  · exact List.mem_cons.2 (Or.inl h)
  · exact List.mem_cons.2 (Or.inr (by simpa only [colMax, h] using hz))

/-- The heights of the bars over `nbins - 1` intervals of the same width from the smallest to the largest number of `col`: how many of `xs` lie in each
interval (without its right end, except for the last one). -/
structure IsHistogram (col xs : List R) (nbins : ℕ) (bars : List ℕ) : Prop where
  size : bars.length = nbins - 1
  all : bars.sum = xs.length
  bar : ∃ lo hi, IsLeast {v | v ∈ col} lo ∧ IsGreatest {v | v ∈ col} hi ∧ ∀ k < nbins - 1, ∃ a b, a = lo + (k : R) * ((hi - lo) / ((nbins : R) - 1)) ∧
    b = lo + ((k : R) + 1) * ((hi - lo) / ((nbins : R) - 1)) ∧ bars.getD k 0 = xs.countP fun x => decide (a ≤ x ∧ (x < b ∨ (k + 2 = nbins ∧ x ≤ b)))

theorem histCounts_spec {col xs : List R} (hc : col ≠ []) (h : ∀ x ∈ xs, x ∈ col) {nbins : ℕ} (hn : 2 ≤ nbins) :
    IsHistogram col xs nbins (histCounts (linspace (colMin col) (colMax col) nbins) xs) := by
  obtain ⟨h1, h2⟩ := histCounts_sum h hn
  refine ⟨h2, h1, _, _, colMin_spec hc, colMax_spec hc, fun k hk => ⟨_, _, rfl, rfl, ?_⟩⟩
  have hl : (linspace (colMin col) (colMax col) nbins).length = nbins := by simp [linspace]
  have hcast : ((nbins - 1 : ℕ) : R) = (nbins : R) - 1 := by rw [Nat.cast_sub (by omega)]; simp
  unfold histCounts
  rw [hl, tab_getD _ _ _ _ hk]
  refine List.countP_congr fun x _ => ?_
  rw [linspace, tab_getD _ _ _ _ (by omega), tab_getD _ _ _ _ (by omega), hcast]
  push_cast
  rfl

/-- The two columns of the table have the same length. -/
theorem featureTable_two {K : Sem R P I W S V} {w : World R P I W S} {i₁ i₂ : ℤ} {source : Source} {a : Analyser R V} {l₁ l₂ : PStr} {x y : List V}
    (h : featureTable K w (some [i₁, i₂]) source a = .ok [(l₁, x), (l₂, y)]) : x.length = y.length := by
  unfold featureTable at h
  simp only [ok_bind] at h
  cases hF : sourceFeatures a source with
  | error e => rw [hF] at h; cases h
  | ok F =>
    rw [hF] at h
    simp only [ok_bind] at h
    have h' := mapM_ok_iff.1 h
    rcases h' with _ | ⟨h1, _ | ⟨h2, _⟩⟩
    have key : ∀ {i : ℤ} {l : PStr} {z : List V}, (do
        let col ← F.mapM fun r => pyAt r i
        let name ← fruitLabel K w true .features a.fruit i
        pure (name, col) : Except Err (PStr × List V)) = .ok (l, z) → z.length = F.length := by
      intro i l z hz
      cases hc : F.mapM fun r => pyAt r i with
      | error e => rw [hc] at hz; cases hz
      | ok col =>
        rw [hc, ok_bind] at hz
        cases hn : fruitLabel K w true .features a.fruit i with
        | error e => rw [hn] at hz; cases hz
        | ok nm =>
          rw [hn] at hz
          cases hz
          exact (mapM_ok_iff.1 hc).length_eq.symm
    rw [key h1, key h2]

/-- **C144**: one group for each class in increasing order of the classes, with the points (feature, feature) of its samples in order, and histograms
that count each sample of the class once. -/
theorem C144_groups {K : Sem R P I W S R} {w : World R P I W S} {i₁ i₂ : ℤ} {source : Source} {a : Analyser R R} {l₁ l₂ : PStr} {x y : List R} {nbins : ℕ}
    (hn : 2 ≤ nbins) (hf : featureTable K w (some [i₁, i₂]) source a = .ok [(l₁, x), (l₂, y)]) (hlen : (sourceTargets a source).length = x.length)
    (hne : x ≠ []) :
    ∃ cs gs, IsClasses (sourceTargets a source) cs ∧ scatterFeatures K w i₁ i₂ source nbins a = .ok (l₁, l₂, gs) ∧ gs.length = cs.length ∧
      ∀ (i : ℕ) (h : i < gs.length) (h' : i < cs.length), gs[i].label = cs[i] ∧
        gs[i].xs = ((membersOf (sourceTargets a source) cs[i]).map fun k => x.getD k 0) ∧
        gs[i].ys = ((membersOf (sourceTargets a source) cs[i]).map fun k => y.getD k 0) ∧
        IsHistogram x gs[i].xs nbins gs[i].barsx ∧ IsHistogram y gs[i].ys nbins gs[i].barsy := by
  have hxy := featureTable_two hf
  refine ⟨_, scatterLoop (linspace (colMin x) (colMax x) nbins) (linspace (colMin y) (colMax y) nbins) x y (sourceTargets a source)
    (sortedClasses (sourceTargets a source)) none none, sortedClasses_isClasses _, ?_, (scatterLoop_spec _ _ x y (sourceTargets a source) _ _ _).1,
    fun i h h' => ?_⟩
  · unfold scatterFeatures
    rw [hf, ok_bind]
    simp only
    rw [if_pos hlen]
    rfl
  · obtain ⟨a1, a2, a3, a4, a5, _⟩ := (scatterLoop_spec _ _ x y (sourceTargets a source) _ _ _).2 i h h'
    rw [a4, a5, a1, a2, a3]
    have hmem : ∀ {z : List R}, z.length = (sourceTargets a source).length → ∀ v ∈ rowsOfClass z (sourceTargets a source) (sortedClasses (sourceTargets a source))[i], v ∈ z := by
      intro z _ v hv
      obtain ⟨p, hp, rfl⟩ := List.mem_map.1 hv
      exact (List.of_mem_zip (List.mem_of_mem_filter hp)).1
    refine ⟨rfl, rowsOfClass_eq _ _ _ 0 hlen, rowsOfClass_eq _ _ _ 0 (hlen.trans hxy), histCounts_spec hne (hmem hlen.symm) hn, histCounts_spec ?_ (hmem (hxy ▸ hlen.symm)) hn⟩
    rintro rfl
    exact hne (List.length_eq_zero_iff.1 hxy)

theorem barsBelow_succ (bars : List (List ℕ)) {i : ℕ} (hi : i < bars.length) (k : ℕ) : barsBelow bars (i + 1) k = barsBelow bars i k + bars[i].getD k 0 := by
  rw [barsBelow, List.take_succ_eq_append_getElem hi, List.map_append, List.sum_append, barsBelow]
  rfl

theorem le_barsBelow (bars : List (List ℕ)) {i j : ℕ} (hij : j < i) (hi : i ≤ bars.length) (k : ℕ) : (bars.getD j []).getD k 0 ≤ barsBelow bars i k := by
  induction i with
  | zero => omega
  | succ i ih =>
    rw [barsBelow_succ bars (by omega)]
    rcases Nat.lt_succ_iff_lt_or_eq.1 hij with h | rfl
    · exact (ih h (by omega)).trans (Nat.le_add_right _ _)
    · rw [getD_getElem (X := bars) (by omega)]
      exact Nat.le_add_left _ _

/-- The bars of each group start at the heights of the bars of the group before. -/
theorem stack_spec {gs : List (Group R)} {bot : Group R → Option (List ℕ)} {bars : Group R → List ℕ}
    (h : ∀ (i : ℕ) (hi : i < gs.length), bot gs[i] = if i = 0 then none else some ((gs.map bars).getD (i - 1) [])) (i : ℕ) (hi : i < gs.length) (k : ℕ) :
    (i ≤ 1 → ((bot gs[i]).getD []).getD k 0 = barsBelow (gs.map bars) i k) ∧
      (∀ j, j + 1 < i → 0 < ((gs.map bars).getD j []).getD k 0 → ((bot gs[i]).getD []).getD k 0 < barsBelow (gs.map bars) i k) := by
  rw [h i hi]
  cases i with
  | zero => exact ⟨fun _ => by simp [barsBelow], fun j hj => by omega⟩
  | succ i =>
    have hi' : i < (gs.map bars).length := by rw [List.length_map]; omega
    rw [if_neg (by omega), Nat.add_sub_cancel, Option.getD_some, barsBelow_succ _ hi', getD_getElem hi']
    constructor
    · intro h1
      obtain rfl : i = 0 := by omega
      simp [barsBelow]
    · intro j hj hpos
      have := le_barsBelow (gs.map bars) (i := i) (by omega : j < i) hi'.le k
      omega

theorem scatter_bottoms {K : Sem R P I W S R} {w : World R P I W S} {i₁ i₂ : ℤ} {source : Source} {nbins : ℕ} {a : Analyser R R} {l₁ l₂ : PStr} {gs : List (Group R)}
    (h : scatterFeatures K w i₁ i₂ source nbins a = .ok (l₁, l₂, gs)) (i : ℕ) (hi : i < gs.length) :
    gs[i].bottomx = (if i = 0 then none else some ((gs.map Group.barsx).getD (i - 1) [])) ∧
      gs[i].bottomy = (if i = 0 then none else some ((gs.map Group.barsy).getD (i - 1) [])) := by
  unfold scatterFeatures at h
  cases hf : featureTable K w (some [i₁, i₂]) source a with
  | error e => rw [hf] at h; cases h
  | ok feat =>
    rw [hf, ok_bind] at h
    split at h
    · dsimp only at h
      split at h
      · cases h
        rename_i x y _
        generalize hex : linspace (colMin x) (colMax x) nbins = ex at hi ⊢
        generalize hey : linspace (colMin y) (colMax y) nbins = ey at hi ⊢
        generalize hcs : sortedClasses (sourceTargets a source) = cs at hi ⊢
        obtain ⟨hlen, hall⟩ := scatterLoop_spec ex ey x y (sourceTargets a source) cs none none
        obtain ⟨_, _, _, _, _, b1, b2⟩ := hall i hi (hlen ▸ hi)
        rw [b1, b2]
        cases i with
        | zero => exact ⟨rfl, rfl⟩
        | succ i =>
          have hi' : i < cs.length := by omega
          obtain ⟨_, _, _, c1, c2, _⟩ := hall i (by omega) hi'
          simp only [if_neg (Nat.succ_ne_zero i), Nat.add_sub_cancel]
          rw [getD_getElem hi', getD_getElem (by rw [List.length_map]; omega), getD_getElem (by rw [List.length_map]; omega), List.getElem_map, List.getElem_map, c1, c2]
          exact ⟨rfl, rfl⟩
      · cases h
    · cases h

/-- **C144**: the bars of the first two classes are stacked. -/
theorem C144_stack_partial {K : Sem R P I W S R} {w : World R P I W S} {i₁ i₂ : ℤ} {source : Source} {nbins : ℕ} {a : Analyser R R} {l₁ l₂ : PStr} {gs : List (Group R)}
    (h : scatterFeatures K w i₁ i₂ source nbins a = .ok (l₁, l₂, gs)) (i : ℕ) (hi : i < gs.length) (hi' : i < 2) (k : ℕ) :
    (gs[i].bottomx.getD []).getD k 0 = barsBelow (gs.map Group.barsx) i k ∧ (gs[i].bottomy.getD []).getD k 0 = barsBelow (gs.map Group.barsy) i k :=
  ⟨(stack_spec (fun i hi => (scatter_bottoms h i hi).1) i hi k).1 (by omega), (stack_spec (fun i hi => (scatter_bottoms h i hi).2) i hi k).1 (by omega)⟩

/-- **C144 is false for three and more classes**: the bars of a class overlap those of the classes before the previous one, wherever these have
any samples. -/
theorem C144_stack_false {K : Sem R P I W S R} {w : World R P I W S} {i₁ i₂ : ℤ} {source : Source} {nbins : ℕ} {a : Analyser R R} {l₁ l₂ : PStr} {gs : List (Group R)}
    (h : scatterFeatures K w i₁ i₂ source nbins a = .ok (l₁, l₂, gs)) (i j : ℕ) (hi : i < gs.length) (hj : j + 1 < i) (k : ℕ)
    (hpos : 0 < ((gs.map Group.barsx).getD j []).getD k 0) : (gs[i].bottomx.getD []).getD k 0 < barsBelow (gs.map Group.barsx) i k :=
  (stack_spec (fun i hi => (scatter_bottoms h i hi).1) i hi k).2 j hj hpos

/-- Non-vacuity: three classes whose samples all lie in the first bar. -/
example : (scatterLoop (linspace (colMin [0, 0, 0, 1]) (colMax [0, 0, 0, 1]) 3) (linspace (colMin [2, 3, 4, 4]) (colMax [2, 3, 4, 4]) 3)
      ([0, 0, 0, 1] : List ℚ) [2, 3, 4, 4] [1, 2, 3, 1] [1, 2, 3] none none).map (fun g => (g.label, g.xs, g.barsx, g.bottomx)) =
    [(1, [0, 1], [1, 1], none), (2, [0], [1, 0], some [1, 1]), (3, [0], [1, 0], some [1, 0])] := by decide +kernel

/-! ### C145: test_classifier -/

theorem caseScores_mapM (make : T → List (List V) → List ℤ → List (List V) → List ℤ → Except Err R) (indices : Option (List ℤ)) {a : Analyser R V}
    (ha : a.extracted = true) (ts : List T) : caseScores make indices a ts = ts.mapM fun t => classify (make t) indices a := by
  induction ts with
  | nil => rfl
  | cons t ts ih =>
    rw [List.mapM_cons, caseScores, ih, classify, if_pos ha]
    simp only [bind_assoc]
    cases indices <;> simp only [bind_assoc]

theorem bestLoop_spec (xs : List R) (i best : ℕ) (v : R) (pre : List R) (hi : i = pre.length) (hb : pre[best]? = some v) (hmax : ∀ x ∈ pre, x ≤ v)
    (hfirst : ∀ (j : ℕ) (h : j < pre.length), j < best → pre[j] < v) :
    ∃ u, (pre ++ xs)[bestLoop xs i best v]? = some u ∧ (∀ x ∈ pre ++ xs, x ≤ u) ∧
      ∀ (j : ℕ) (h : j < (pre ++ xs).length), j < bestLoop xs i best v → (pre ++ xs)[j] < u := by
  induction xs generalizing i best v pre with
  | nil =>
    simp only [bestLoop, List.append_nil]
    exact ⟨v, hb, hmax, hfirst⟩
  | cons x xs ih =>
    rw [bestLoop]
    have happ : pre ++ x :: xs = (pre ++ [x]) ++ xs := by simp
    split
    · rename_i hlt
      simp only [happ]
      refine ih (i + 1) i x (pre ++ [x]) (by simp [hi]) (by simp [hi]) ?_ ?_
      · intro z hz
        rcases List.mem_append.1 hz with hz | hz
        · exact (hmax z hz).trans hlt.le
        · rw [List.mem_singleton.1 hz]
      · intro j h hj
        rw [List.getElem_append_left (by omega)]
        exact (hmax _ (List.getElem_mem _)).trans_lt hlt
    · rename_i hlt
      simp only [happ]
      have hbl : best < pre.length := by
        by_contra hno
        rw [List.getElem?_eq_none (by omega)] at hb
        cases hb
      refine ih (i + 1) best v (pre ++ [x]) (by simp [hi]) (by rw [List.getElem?_append_left hbl, hb]) ?_ ?_
      · intro z hz
        rcases List.mem_append.1 hz with hz | hz
        · exact hmax z hz
        · rw [List.mem_singleton.1 hz]; exact not_lt.1 hlt
      · intro j h hj
        rw [List.getElem_append_left (by omega)]
        exact hfirst j (by omega) hj

/-- **C145**: after `transform_all` the plotted accuracy of each test case is the one `classify` has with this classifier alone, and the red line is
at the first test case with the largest accuracy. -/
theorem C145_scores (make : T → List (List V) → List ℤ → List (List V) → List ℤ → Except Err R) (indices : Option (List ℤ)) {a : Analyser R V}
    (ha : a.extracted = true) {cases : List T} (hne : cases ≠ []) (acc : T → R) (h : ∀ t ∈ cases, classify (make t) indices a = .ok (acc t)) :
    ∃ best pre post, cases = pre ++ best :: post ∧ testClassifier make cases indices a = .ok (cases.map fun t => (t, acc t), best) ∧
      (∀ t ∈ pre, acc t < acc best) ∧ ∀ t ∈ cases, acc t ≤ acc best := by
  have hs : caseScores make indices a cases = .ok (cases.map acc) := by
    rw [caseScores_mapM make indices ha]
    exact mapM_ok_iff.2 (by
      rw [List.forall₂_map_right_iff]
      exact List.forall₂_same.2 h)
  obtain ⟨c, cs, rfl⟩ := List.exists_cons_of_ne_nil hne
  obtain ⟨u, h1, h2, h3⟩ := bestLoop_spec (cs.map acc) 1 0 (acc c) [acc c] rfl rfl (by simp) (fun j h hj => by omega)
  generalize hb : bestLoop (cs.map acc) 1 0 (acc c) = b at h1 h3
  have hmap : [acc c] ++ cs.map acc = (c :: cs).map acc := rfl
  rw [hmap] at h1 h2
  simp only [hmap] at h3
  have hbl : b < (c :: cs).length := by
    by_contra hno
    rw [List.getElem?_eq_none (by simpa using hno)] at h1
    cases h1
  have hu : acc (c :: cs)[b] = u := by
    rw [List.getElem?_eq_getElem (by simpa using hbl), List.getElem_map] at h1
    exact Option.some.inj h1
  refine ⟨(c :: cs)[b], (c :: cs).take b, (c :: cs).drop (b + 1), ?_, ?_, ?_, ?_⟩
  · rw [← List.drop_eq_getElem_cons hbl, List.take_append_drop]
  · unfold testClassifier
    rw [hs, ok_bind, List.map_cons, bestPos, hb, ok_bind, pyAt_of (List.getElem?_eq_getElem hbl), ok_bind]
    congr 2
    rw [← List.map_cons]
    apply List.ext_getElem
    · simp
    · intro j _ _
      rw [List.getElem_zip, List.getElem_map, List.getElem_map]
  · intro t ht
    obtain ⟨j, hj, rfl⟩ := List.getElem_of_mem ht
    have hj' : j < b := by
      rw [List.length_take] at hj
      omega
    have := h3 j (by rw [List.length_map]; omega) hj'
    rw [List.getElem_map, ← hu] at this
    rwa [List.getElem_take]
  · intro t ht
    rw [hu]
    exact h2 _ (List.mem_map_of_mem ht)

/-- **C145**: the first test case whose classifier raises ends the method with its exception; no test cases are a `ValueError`. -/
theorem C145_errors (make : T → List (List V) → List ℤ → List (List V) → List ℤ → Except Err R) (indices : Option (List ℤ)) {a : Analyser R V}
    (ha : a.extracted = true) :
    testClassifier make [] indices a = .error .valueError ∧
      ∀ (pre post : List T) (t : T) (e : Err), (∀ s ∈ pre, ∃ q, classify (make s) indices a = .ok q) → classify (make t) indices a = .error e →
        testClassifier make (pre ++ t :: post) indices a = .error e := by
  refine ⟨rfl, fun pre post t e hpre ht => ?_⟩
  unfold testClassifier
  rw [caseScores_mapM make indices ha]
  have : (pre ++ t :: post).mapM (fun t => classify (make t) indices a) = .error e := by
    induction pre with
    | nil => rw [List.nil_append, List.mapM_cons, ht]; rfl
    | cons s pre ih =>
      obtain ⟨q, hq⟩ := hpre s (by simp)
      rw [List.cons_append, List.mapM_cons, hq, ok_bind, ih fun z hz => hpre z (by simp [hz])]
      rfl
  rw [this]
  rfl

/-- **C145**: before `transform_all` there are no features. -/
theorem C145_new (make : T → List (List V) → List ℤ → List (List V) → List ℤ → Except Err R) (indices : Option (List ℤ)) {a : Analyser R V}
    (ha : a.trainFeat = none) (t : T) (ts : List T) : testClassifier make (t :: ts) indices a = .error .attributeError := by
  unfold testClassifier caseScores
  rw [ha]
  rfl

/-- Non-vacuity of C145: two features, classifiers that score the sum of column `t` of the test features; the best is the first of two equal ones. -/
example : testClassifier (fun (t : ℕ) _ _ (G : List (List ℚ)) _ => .ok (G.map fun r => r.getD t 0).sum) [0, 1, 2] none
    (⟨0, [], [1, 2], [], [1, 2], true, some [], some [[1, 5, 2], [2, 0, 3]], none⟩ : Analyser ℚ ℚ) = .ok ([(0, 3), (1, 5), (2, 5)], 1) := by decide +kernel

end Fruits
