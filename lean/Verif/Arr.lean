import Verif.Py
import Mathlib.Algebra.Order.Floor.Ring
import Mathlib.Algebra.BigOperators.Field
import Mathlib.Data.List.Sort

/-!
# Datasets: three-dimensional arrays

A dataset of shape `(m, d, n)` (samples, dimensions, time steps) is a list of series, a series a list of rows.  `HasShape`
is the rectangularity that numpy enforces.  `X.shape[1]`, `X.shape[2]` are read off the first series, so they are right
for arrays with at least one sample and one dimension; zero-sized datasets are outside the model.

`tab3` is the proof normal form.  Integer indices of slices follow Python: negative ones count from the end and
out-of-range ones are clipped.
-/

namespace Fruits
set_option linter.unusedSectionVars false

/-- A multidimensional time series: `X[i, :, :]`. -/
abbrev Series (R : Type*) := List (List R)
/-- A dataset: `X[:, :, :]`. -/
abbrev Data (R : Type*) := List (Series R)

/-- `X.shape == (m, d, n)`. -/
def HasShape {R : Type*} (X : Data R) (m d n : ℕ) : Prop :=
  X.length = m ∧ ∀ s ∈ X, s.length = d ∧ ∀ r ∈ s, r.length = n

/-- `X.shape[1]`. -/
def shape1 {R : Type*} (X : Data R) : ℕ := (X.getD 0 []).length
/-- `X.shape[2]`. -/
def shape2 {R : Type*} (X : Data R) : ℕ := ((X.getD 0 []).getD 0 []).length

/-- `X[i, j, t]` (zero outside of the array). -/
def at3 {R : Type*} [Zero R] (X : Data R) (i j t : ℕ) : R := ((X.getD i []).getD j []).getD t 0
/-- `s[j, t]` (zero outside of the array). -/
def at2 {R : Type*} [Zero R] (s : Series R) (j t : ℕ) : R := (s.getD j []).getD t 0
/-- `x[t]` (zero outside of the array). -/
def at1 {R : Type*} [Zero R] (x : List R) (t : ℕ) : R := x.getD t 0

/-- Proof normal form of a series. -/
def tab2 {R : Type*} (d n : ℕ) (f : ℕ → ℕ → R) : Series R := tab d fun j => tab n fun t => f j t
/-- Proof normal form of a dataset. -/
def tab3 {R : Type*} (m d n : ℕ) (f : ℕ → ℕ → ℕ → R) : Data R := tab m fun i => tab2 d n (f i)

/-- Applies a function to every row `X[i, j, :]`. -/
def mapRows {R S : Type*} (f : List R → List S) (X : Data R) : Data S := X.map fun s => s.map f
/-- Applies a function to every entry. -/
def mapEntries {R S : Type*} (f : R → S) (X : Data R) : Data S := mapRows (List.map f) X

section shape
variable {R S : Type*} {m d n : ℕ}

@[simp] theorem tab2_length (f : ℕ → ℕ → R) : (tab2 d n f).length = d := by simp [tab2]
@[simp] theorem tab3_length (f : ℕ → ℕ → ℕ → R) : (tab3 m d n f).length = m := by simp [tab3]

theorem hasShape_tab3 (f : ℕ → ℕ → ℕ → R) : HasShape (tab3 m d n f) m d n := by
  refine ⟨by simp, ?_⟩
  intro s hs
  obtain ⟨i, _, rfl⟩ := mem_tab.1 hs
  refine ⟨by simp, ?_⟩
  intro r hr
  obtain ⟨j, _, rfl⟩ := mem_tab.1 hr
  simp

theorem getD_tab {α : Type*} {n : ℕ} {f : ℕ → α} {i : ℕ} {d : α} (h : i < n) : (tab n f).getD i d = f i :=
  tab_getD _ _ _ _ h

theorem at1_tab [Zero R] {f : ℕ → R} {t : ℕ} (h : t < n) : at1 (tab n f) t = f t := tab_getD _ _ _ _ h

theorem at2_tab2 [Zero R] {f : ℕ → ℕ → R} {j t : ℕ} (hj : j < d) (ht : t < n) : at2 (tab2 d n f) j t = f j t := by
  simp only [at2, tab2, getD_tab hj, getD_tab ht]

theorem at3_tab3 [Zero R] {f : ℕ → ℕ → ℕ → R} {i j t : ℕ} (hi : i < m) (hj : j < d) (ht : t < n) :
    at3 (tab3 m d n f) i j t = f i j t := by
  simp only [at3, tab3, tab2, getD_tab hi, getD_tab hj, getD_tab ht]

theorem tab2_congr {f g : ℕ → ℕ → R} (h : ∀ j < d, ∀ t < n, f j t = g j t) : tab2 d n f = tab2 d n g :=
  tab_congr fun j hj => tab_congr fun t ht => h j hj t ht

theorem tab3_congr {f g : ℕ → ℕ → ℕ → R} (h : ∀ i < m, ∀ j < d, ∀ t < n, f i j t = g i j t) :
    tab3 m d n f = tab3 m d n g :=
  tab_congr fun i hi => tab2_congr fun j hj t ht => h i hi j hj t ht

theorem series_eq_tab2 [Zero R] {s : Series R} (h1 : s.length = d) (h2 : ∀ r ∈ s, r.length = n) :
    s = tab2 d n (at2 s) := by
  apply eq_tab h1
  intro j hj
  have hl : (s[j]).length = n := h2 _ (List.getElem_mem hj)
  have hg : s.getD j [] = s[j] := by simp [List.getD_eq_getElem?_getD, hj]
  simp only [at2, hg]
  rw [← hl]
  exact tab_of_list _ _

theorem HasShape.eq_tab3 [Zero R] {X : Data R} (h : HasShape X m d n) : X = tab3 m d n (at3 X) := by
  obtain ⟨h1, h2⟩ := h
  apply eq_tab h1
  intro i hi
  have hg : X.getD i [] = X[i] := by simp [List.getD_eq_getElem?_getD, hi]
  obtain ⟨ha, hb⟩ := h2 _ (List.getElem_mem hi)
  conv_lhs => rw [series_eq_tab2 ha hb]
  congr 1
  funext j t
  simp only [at3, at2, hg]

theorem HasShape.ext [Zero R] {X Y : Data R} (hX : HasShape X m d n) (hY : HasShape Y m d n)
    (h : ∀ i < m, ∀ j < d, ∀ t < n, at3 X i j t = at3 Y i j t) : X = Y := by
  rw [hX.eq_tab3, hY.eq_tab3]
  exact tab3_congr h

theorem shape1_tab3 {f : ℕ → ℕ → ℕ → R} (hm : 0 < m) : shape1 (tab3 m d n f) = d := by
  simp only [shape1, tab3, getD_tab hm, tab2_length]

theorem shape2_tab3 {f : ℕ → ℕ → ℕ → R} (hm : 0 < m) (hd : 0 < d) : shape2 (tab3 m d n f) = n := by
  simp only [shape2, tab3, getD_tab hm, tab2, getD_tab hd, tab_length]

theorem HasShape.shape1_eq [Zero R] {X : Data R} (h : HasShape X m d n) (hm : 0 < m) : shape1 X = d := by
  rw [h.eq_tab3, shape1_tab3 hm]

theorem HasShape.shape2_eq [Zero R] {X : Data R} (h : HasShape X m d n) (hm : 0 < m) (hd : 0 < d) : shape2 X = n := by
  rw [h.eq_tab3, shape2_tab3 hm hd]

theorem mapRows_tab3 (g : List R → List S) (f : ℕ → ℕ → ℕ → R) :
    mapRows g (tab3 m d n f) = tab m fun i => tab d fun j => g (tab n (f i j)) := by
  simp [mapRows, tab3, tab2]

/-- A row-wise transformation on the normal form. -/
theorem mapRows_eq_tab3 {n' : ℕ} (g : List R → List S) (f : ℕ → ℕ → ℕ → R) (f' : ℕ → ℕ → ℕ → S)
    (h : ∀ i < m, ∀ j < d, g (tab n (f i j)) = tab n' (f' i j)) :
    mapRows g (tab3 m d n f) = tab3 m d n' f' := by
  rw [mapRows_tab3]
  exact tab_congr fun i hi => tab_congr fun j hj => h i hi j hj

theorem mapEntries_tab3 (g : R → S) (f : ℕ → ℕ → ℕ → R) :
    mapEntries g (tab3 m d n f) = tab3 m d n fun i j t => g (f i j t) :=
  mapRows_eq_tab3 _ _ _ fun i _ j _ => map_tab _ _ _

/-- Entry of a row. -/
theorem HasShape.row_eq [Zero R] {X : Data R} (h : HasShape X m d n) {i j : ℕ} (hi : i < m) (hj : j < d) :
    (X.getD i []).getD j [] = tab n (at3 X i j) := by
  conv_lhs => rw [h.eq_tab3]
  simp only [tab3, tab2, getD_tab hi, getD_tab hj]

theorem HasShape.series_eq [Zero R] {X : Data R} (h : HasShape X m d n) {i : ℕ} (hi : i < m) :
    X.getD i [] = tab2 d n (at3 X i) := by
  conv_lhs => rw [h.eq_tab3]
  simp only [tab3, getD_tab hi]

theorem HasShape.map [Zero R] {X : Data R} (h : HasShape X m d n) (f : Series R → S) :
    X.map f = tab m fun i => f (tab2 d n (at3 X i)) := by
  conv_lhs => rw [h.eq_tab3]
  simp [tab3]

theorem HasShape.singleton [Zero R] {X : Data R} (h : HasShape X m d n) {i : ℕ} (hi : i < m) :
    HasShape [X.getD i []] 1 d n := by
  rw [h.series_eq hi]
  have : [tab2 d n (at3 X i)] = tab3 1 d n (fun _ => at3 X i) := by simp [tab3, tab_succ']
  rw [this]
  exact hasShape_tab3 _

end shape

/-! ### Python slices -/

/-- The position a slice bound `i` denotes in a sequence of length `n`. -/
def pyClip (n : ℕ) (i : ℤ) : ℕ := if 0 ≤ i then min i.toNat n else n - (-i).toNat

/-- `x[a:b]`. -/
def slc {α : Type*} (x : List α) (a b : ℤ) : List α := (x.take (pyClip x.length b)).drop (pyClip x.length a)
/-- `x[a:]`. -/
def slcFrom {α : Type*} (x : List α) (a : ℤ) : List α := x.drop (pyClip x.length a)
/-- `x[:b]`. -/
def slcTo {α : Type*} (x : List α) (b : ℤ) : List α := x.take (pyClip x.length b)

/-- `x[a:b] = v` for positions `a b` already clipped, with an array `v`: numpy writes an array of the right length,
broadcasts an array of length one and raises `ValueError` otherwise. -/
def setSlc {α : Type*} (x : List α) (a b : ℕ) (v : List α) : Except Err (List α) :=
  if v.length = b - a then .ok (x.take a ++ v ++ x.drop (max a b))
  else match v with
    | [c] => .ok (x.take a ++ List.replicate (b - a) c ++ x.drop (max a b))
    | _ => .error .valueError

/-- `x[a:b] = c` for positions `a b` already clipped, with a scalar `c`. -/
def fillSlc {α : Type*} (x : List α) (a b : ℕ) (c : α) : List α :=
  x.take a ++ List.replicate (b - a) c ++ x.drop (max a b)

theorem pyClip_nat (n k : ℕ) : pyClip n (k : ℤ) = min k n := by simp [pyClip]

theorem pyClip_neg (n k : ℕ) (hk : 0 < k) : pyClip n (-(k : ℤ)) = n - k := by
  have : ¬ (0 : ℤ) ≤ -(k : ℤ) := by omega
  rw [pyClip, if_neg this, neg_neg, Int.toNat_natCast]

theorem pyClip_le (n : ℕ) (i : ℤ) : pyClip n i ≤ n := by
  unfold pyClip; split <;> omega

theorem fillSlc_tab {α : Type*} (n : ℕ) (f : ℕ → α) (a b : ℕ) (c : α) (hb : b ≤ n) (ha : a ≤ n) :
    fillSlc (tab n f) a b c = tab n (fun t => if a ≤ t ∧ t < b then c else f t) := by
  unfold fillSlc
  apply eq_tab
  · simp; omega
  · intro i hi
    simp only [List.getElem_append, List.length_append, List.length_take, tab_length, List.length_replicate]
    have h1 : min a n = a := by omega
    simp only [h1]
    by_cases h2 : i < a
    · have h3 : ¬ (a ≤ i ∧ i < b) := by omega
      have h4 : i < a + (b - a) := by omega
      simp only [h2, h4, dif_pos, if_neg h3, List.getElem_take, tab_getElem]
    · by_cases h4 : i < a + (b - a)
      · have h3 : (a ≤ i ∧ i < b) := by omega
        simp only [h4, h2, dif_pos, dif_neg, not_false_eq_true, if_pos h3, List.getElem_replicate]
      · have h3 : ¬ (a ≤ i ∧ i < b) := by omega
        simp only [h4, dif_neg, not_false_eq_true, if_neg h3, List.getElem_drop, tab_getElem]
        congr 1; omega

theorem setSlc_tab {α : Type*} (n k : ℕ) (f g : ℕ → α) (a b : ℕ) (hb : b ≤ n) (ha : a ≤ n) (hk : k = b - a) :
    setSlc (tab n f) a b (tab k g) = .ok (tab n (fun t => if a ≤ t ∧ t < b then g (t - a) else f t)) := by
  unfold setSlc
  rw [if_pos (by simp [hk])]
  congr 1
  apply eq_tab
  · simp; omega
  · intro i hi
    simp only [List.getElem_append, List.length_append, List.length_take, tab_length]
    have h1 : min a n = a := by omega
    simp only [h1]
    by_cases h2 : i < a
    · have h3 : ¬ (a ≤ i ∧ i < b) := by omega
      have h4 : i < a + k := by omega
      simp only [h2, h4, dif_pos, if_neg h3, List.getElem_take, tab_getElem]
    · by_cases h4 : i < a + k
      · have h3 : (a ≤ i ∧ i < b) := by omega
        simp only [h4, h2, dif_pos, dif_neg, not_false_eq_true, if_pos h3, tab_getElem]
      · have h3 : ¬ (a ≤ i ∧ i < b) := by omega
        simp only [h4, dif_neg, not_false_eq_true, if_neg h3, List.getElem_drop, tab_getElem]
        congr 1; omega

theorem slcFrom_tab {α : Type*} (n k : ℕ) (f : ℕ → α) :
    slcFrom (tab n f) (k : ℤ) = tab (n - k) (fun t => f (k + t)) := by
  unfold slcFrom
  rw [tab_length, pyClip_nat, drop_tab]
  rcases le_total k n with h | h
  · rw [min_eq_left h]
  · have h1 : n - min k n = 0 := by omega
    have h2 : n - k = 0 := by omega
    rw [h1, h2]; rfl

theorem slcTo_neg_tab {α : Type*} (n k : ℕ) (hk : 0 < k) (f : ℕ → α) :
    slcTo (tab n f) (-(k : ℤ)) = tab (n - k) f := by
  unfold slcTo
  rw [tab_length, pyClip_neg _ _ hk, take_tab]
  congr 1; omega

theorem slcTo_tab {α : Type*} (n k : ℕ) (f : ℕ → α) :
    slcTo (tab n f) (k : ℤ) = tab (min k n) f := by
  unfold slcTo
  rw [tab_length, pyClip_nat, take_tab]
  congr 1; omega

theorem slc_tab {α : Type*} (n a b : ℕ) (f : ℕ → α) :
    slc (tab n f) (a : ℤ) (b : ℤ) = tab (min b n - a) (fun t => f (a + t)) := by
  unfold slc
  rw [tab_length, pyClip_nat, pyClip_nat, take_tab, drop_tab]
  rcases le_total a n with h | h
  · rw [min_eq_left h]; congr 1; omega
  · rw [show min (min b n) n - min a n = 0 by omega, show min b n - a = 0 by omega]; rfl

/-! ### `int()` and reductions -/

/-- Python `int(x)` of a float: truncation towards zero. -/
def pyInt {R : Type*} [Ring R] [LinearOrder R] [FloorRing R] (x : R) : ℤ := if 0 ≤ x then ⌊x⌋ else ⌈x⌉

theorem pyInt_nonneg {R : Type*} [Ring R] [LinearOrder R] [FloorRing R] {x : R} (h : 0 ≤ x) : pyInt x = ⌊x⌋ := if_pos h

/-- `np.mean(x)` of a one-dimensional array. -/
def mean {R : Type*} [DivisionRing R] (x : List R) : R := x.sum / (x.length : R)

/-- The variance used by `np.std(x)` (population variance). -/
def variance {R : Type*} [DivisionRing R] (x : List R) : R := mean (x.map fun v => (v - mean x) * (v - mean x))

/-- `np.max(x)` of a non-empty array (numpy raises `ValueError` for an empty one). -/
def listMax {R : Type*} [Max R] : List R → Option R
  | [] => none
  | x :: xs => some (xs.foldl max x)

/-- `np.min(x)` of a non-empty array. -/
def listMin {R : Type*} [Min R] : List R → Option R
  | [] => none
  | x :: xs => some (xs.foldl min x)

section minmax
variable {R : Type*} [LinearOrder R]

theorem foldl_max_le (xs : List R) (a b : R) : xs.foldl max a ≤ b ↔ a ≤ b ∧ ∀ x ∈ xs, x ≤ b := by
  induction xs generalizing a with
  | nil => simp
  | cons x xs ih => simp [ih, and_assoc]

theorem foldl_max_mem (xs : List R) (a : R) : xs.foldl max a = a ∨ xs.foldl max a ∈ xs := by
  induction xs generalizing a with
  | nil => simp
  | cons x xs ih =>
    simp only [List.foldl_cons, List.mem_cons]
    rcases ih (max a x) with h | h
    · rcases max_choice a x with h' | h'
      · left; rw [h, h']
      · right; left; rw [h, h']
    · right; right; exact h

theorem le_foldl_min (xs : List R) (a b : R) : b ≤ xs.foldl min a ↔ b ≤ a ∧ ∀ x ∈ xs, b ≤ x := by
  induction xs generalizing a with
  | nil => simp
  | cons x xs ih => simp [ih, and_assoc]

theorem foldl_min_mem (xs : List R) (a : R) : xs.foldl min a = a ∨ xs.foldl min a ∈ xs := by
  induction xs generalizing a with
  | nil => simp
  | cons x xs ih =>
    simp only [List.foldl_cons, List.mem_cons]
    rcases ih (min a x) with h | h
    · rcases min_choice a x with h' | h'
      · left; rw [h, h']
      · right; left; rw [h, h']
    · right; right; exact h

/-- `listMax` returns the greatest element. -/
theorem listMax_eq_some {x : List R} {M : R} : listMax x = some M ↔ M ∈ x ∧ ∀ y ∈ x, y ≤ M := by
  cases x with
  | nil => simp [listMax]
  | cons a xs =>
    simp only [listMax, Option.some.injEq]
    constructor
    · rintro rfl
      refine ⟨?_, ?_⟩
      · rcases foldl_max_mem xs a with h | h
        · rw [h]; simp
        · exact List.mem_cons_of_mem _ h
      · have := (foldl_max_le xs a _).1 le_rfl
        simpa using this
    · rintro ⟨h1, h2⟩
      apply le_antisymm
      · rw [foldl_max_le]; simpa using h2
      · have := (foldl_max_le xs a _).1 le_rfl
        rcases List.mem_cons.1 h1 with rfl | h1
        · exact this.1
        · exact this.2 _ h1

/-- `listMin` returns the least element. -/
theorem listMin_eq_some {x : List R} {M : R} : listMin x = some M ↔ M ∈ x ∧ ∀ y ∈ x, M ≤ y := by
  cases x with
  | nil => simp [listMin]
  | cons a xs =>
    simp only [listMin, Option.some.injEq]
    constructor
    · rintro rfl
      refine ⟨?_, ?_⟩
      · rcases foldl_min_mem xs a with h | h
        · rw [h]; simp
        · exact List.mem_cons_of_mem _ h
      · have := (le_foldl_min xs a _).1 le_rfl
        simpa using this
    · rintro ⟨h1, h2⟩
      apply le_antisymm
      · have := (le_foldl_min xs a _).1 le_rfl
        rcases List.mem_cons.1 h1 with rfl | h1
        · exact this.1
        · exact this.2 _ h1
      · rw [le_foldl_min]; simpa using h2

theorem listMax_isSome {x : List R} (h : x ≠ []) : ∃ M, listMax x = some M := by
  cases x with
  | nil => exact absurd rfl h
  | cons a xs => exact ⟨_, rfl⟩

theorem listMin_isSome {x : List R} (h : x ≠ []) : ∃ M, listMin x = some M := by
  cases x with
  | nil => exact absurd rfl h
  | cons a xs => exact ⟨_, rfl⟩

end minmax

end Fruits
