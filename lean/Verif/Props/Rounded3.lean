import Verif.RoundedRows
import Verif.Props.Rounded2
import Verif.Props.Algebra
import Verif.Props.General

/-!
# C154: prefixes, causality and monotonicity hold in floating point, bit for bit

`F : Fp R` is any floating-point format; the statements are equalities (or inequalities) between computed numbers.
-/

namespace Fruits
set_option linter.unusedSectionVars false
variable {R : Type} [Field R] [LinearOrder R] [IsStrictOrderedRing R] [FloorRing R]

/-! ### prefixes -/

theorem Fp.preK_congr (F : Fp R) (expf : R → R) (k : RKind) (total : Bool) (Z : List (List R)) {alpha alpha' : List R}
    (w : List R) {i : ℕ} (h : ∀ j ≤ i, alpha.getD j 0 = alpha'.getD j 0) (el : List ℤ) (tmp : List R) :
    F.preK expf k total Z alpha w i el tmp = F.preK expf k total Z alpha' w i el tmp := by
  cases k <;> cases total <;> simp only [Fp.preK, h i le_rfl, h (i - 1) (by omega)]

theorem Fp.rowK_congr (F : Fp R) (expf : R → R) (k : RKind) (total : Bool) (Z : List (List R)) (n : ℕ)
    {word word' : List (List ℤ)} {alpha alpha' : List R} (w : List R) {i : ℕ}
    (hword : ∀ j ≤ i, word.getD j [] = word'.getD j []) (h : ∀ j ≤ i, alpha.getD j 0 = alpha'.getD j 0) :
    F.rowK expf k total Z n word alpha w i = F.rowK expf k total Z n word' alpha' w i := by
  have ht : ∀ j ≤ i, F.tmpK expf k total Z n word alpha w j = F.tmpK expf k total Z n word' alpha' w j := by
    intro j hj
    induction j with
    | zero => rfl
    | succ j ih =>
      rw [Fp.tmpK, Fp.tmpK, ih (by omega), hword j (by omega),
        F.preK_congr expf k total Z w (fun l hl => h l (by omega))]
      generalize F.preK expf k total Z alpha' w j _ _ = v
      cases k <;> cases total <;> simp only [Fp.postK, h j (by omega)]
  rw [Fp.rowK, Fp.rowK, ht i le_rfl, hword i le_rfl, F.preK_congr expf k total Z w h]
  generalize F.preK expf k total Z alpha' w i _ _ = v
  cases k <;> cases total <;> simp only [Fp.outK, h i le_rfl]

theorem getD_take_of_lt {α : Type*} (l : List α) (d : α) {q j : ℕ} (h : j < q) : (l.take q).getD j d = l.getD j d := by
  simp [List.getD_eq_getElem?_getD, List.getElem?_take, h]

/-- The rounded kernels: row `r` is the only row for the prefix of `p - ext + r + 1` letters. -/
theorem C154_kernel_prefix (F : Fp R) (expf : R → R) (k : RKind) (Z : List (List R)) (word : List (List ℤ))
    (alpha lookup : List R) {ext : ℕ} (he : ext ≤ word.length) (total : Bool) {r : ℕ} (hr : r < ext) :
    (F.fastSingle expf k Z word alpha lookup ext total).getD r []
      = (F.fastSingle expf k Z (word.take (word.length - ext + r + 1)) (alpha.take (word.length - ext + r + 1))
          lookup 1 total).getD 0 [] := by
  have hl : (word.take (word.length - ext + r + 1)).length = word.length - ext + r + 1 := by
    rw [List.length_take]; omega
  rw [F.fastSingle_rows expf k total Z word alpha lookup he, tab_getD _ _ _ _ hr,
    F.fastSingle_rows expf k total Z _ _ lookup (by omega), tab_getD _ _ _ _ (by omega), hl]
  rw [show word.length - ext + r + 1 - 1 + 0 = word.length - ext + r by omega]
  exact F.rowK_congr expf k total Z _ lookup (fun j hj => (getD_take_of_lt _ _ (by omega)).symm)
    (fun j hj => (getD_take_of_lt _ _ (by omega)).symm)

/-- **C154** (prefixes): asked for the last `m` iterated sums of a word with `p ≥ m` extended letters, the semiring returns
`m` rows for every series, and row `r` is bit for bit what it returns for the word `v` of the first `p - m + r + 1`
extended letters (and entries of `alpha`). -/
theorem C154_prefix (F : Fp R) (expf : R → R) (k : RKind) (X : Data R) (w : SWord R) (wt : Option (Weighting R)) {m : ℕ}
    (hm : m ≤ w.els.length) (j : ℕ) (hj : j < X.length) :
    (((F.iteratedSums expf k X w m wt).getD j []).length = m) ∧
    ∀ r < m, ∀ v : SWord R, v.els = w.els.take (w.els.length - m + r + 1) →
      v.getAlpha = w.getAlpha.take (w.els.length - m + r + 1) →
      ((F.iteratedSums expf k X w m wt).getD j []).getD r []
        = ((F.iteratedSums expf k X v 1 wt).getD j []).getD 0 [] := by
  cases wt with
  | none =>
    have e : ∀ (v : SWord R) (ext : ℕ), (F.iteratedSums expf k X v ext none).getD j []
        = F.fastSingle expf k X[j] v.els (zeros v.els.length)
          ((X.map fun Z => (zeros (ncols Z) : List R)).getD j []) ext true := by
      intro v ext
      simp [Fp.iteratedSums, List.getD_eq_getElem?_getD, hj]
    refine ⟨by rw [e, F.fastSingle_rows expf k true _ _ _ _ hm, tab_length], ?_⟩
    intro r hr v hv _
    rw [e, e, C154_kernel_prefix F expf k X[j] w.els _ _ hm true hr, hv]
    congr 2
    rw [zeros, zeros, List.take_replicate]; simp
  | some g =>
    have e : ∀ (v : SWord R) (ext : ℕ), (F.iteratedSums expf k X v ext (some g)).getD j []
        = F.fastSingle expf k X[j] v.els v.getAlpha ((g.lookup X).getD j []) ext g.total := by
      intro v ext
      simp [Fp.iteratedSums, List.getD_eq_getElem?_getD, hj]
    refine ⟨by rw [e, F.fastSingle_rows expf k g.total _ _ _ _ hm, tab_length], ?_⟩
    intro r hr v hv ha
    rw [e, e, C154_kernel_prefix F expf k X[j] w.els _ _ hm g.total hr, hv, ha]

/-! ### causality -/

/-- The rounded kernels on the first `m` time steps of the series and of the lookup. -/
theorem C154_kernel_causal (F : Fp R) (expf : R → R) (k : RKind) {Z : List (List R)} {n m : ℕ} (hZ : Rect Z n)
    (hne : Z ≠ []) (hm : m ≤ n) {word : List (List ℤ)} (hfit : ∀ el ∈ word, el.length ≤ Z.length) (alpha : List R)
    {lookup : List R} (hw : lookup.length = n) {ext : ℕ} (he : ext ≤ word.length) (total : Bool) :
    F.fastSingle expf k (Z.map (List.take m)) word alpha (lookup.take m) ext total
      = (F.fastSingle expf k Z word alpha lookup ext total).map (List.take m) := by
  have hT := TruncZ.of_take hZ hne hm
  rw [F.fastSingle_rows expf k total _ word alpha _ he, F.fastSingle_rows expf k total Z word alpha lookup he, map_tab,
    hT.cols, hT.cols']
  exact tab_congr fun r _ =>
    (Trunc.rowK F expf k total hT (Trunc.of_take hw hm) hfit (word.length - ext + r)).eq_take hm

/-- **C154** (causality): without weighting, the computed iterated sums of the first `m` time steps are bit for bit the first
`m` time steps of the computed iterated sums. -/
theorem C154_causal (F : Fp R) (expf : R → R) (k : RKind) {X : Data R} {D n : ℕ} (hX : IsData X D n) (hD : 0 < D)
    {w : SWord R} (hfit : ∀ el ∈ w.els, el.length ≤ D) {ext : ℕ} (he : ext ≤ w.els.length) {m : ℕ} (hm : m ≤ n) :
    F.iteratedSums expf k (truncate m X) w ext none
      = (F.iteratedSums expf k X w ext none).map fun rows => rows.map (List.take m) := by
  simp only [Fp.iteratedSums, truncate]
  apply List.ext_getElem
  · simp
  intro j h1 h2
  have hj : j < X.length := by simpa using h1
  have hZ := hX _ (List.getElem_mem hj)
  have hne : X[j] ≠ [] := by
    intro h; have := hZ.1; rw [h] at this; simp at this; omega
  have hT := TruncZ.of_take hZ.2 hne hm
  simp only [List.getElem_mapIdx, List.getElem_map, List.getD_eq_getElem?_getD, List.getElem?_map,
    List.getElem?_eq_getElem hj, Option.map_some, Option.getD_some]
  rw [hT.cols, hT.cols']
  have e : (zeros m : List R) = (zeros n).take m := by
    rw [zeros, zeros, List.take_replicate, min_eq_left hm]
  rw [e]
  exact C154_kernel_causal F expf k hZ.2 hne hm (fun el hel => by rw [hZ.1]; exact hfit el hel) _ (by simp) he true

/-! ### monotonicity -/

theorem Trunc.exists_tab {n : ℕ} {v : List R} (h : Trunc n n v v) : ∃ x : ℕ → R, v = tab n x := by
  obtain ⟨x, e, _⟩ := h
  exact ⟨x, e⟩

/-- `tmp` and the rows have length `n`. -/
theorem Fp.rowK_tab (F : Fp R) (expf : R → R) (k : RKind) (total : Bool) {Z : List (List R)} {n : ℕ} (hZ : Rect Z n)
    (hne : Z ≠ []) {word : List (List ℤ)} (hfit : ∀ el ∈ word, el.length ≤ Z.length) (alpha : List R)
    {w : List R} (hw : w.length = n) (i : ℕ) : ∃ x : ℕ → R, F.tmpK expf k total Z n word alpha w i = tab n x := by
  have hT : TruncZ n n Z Z := ⟨fun d hd => by rw [row_tab hZ hd]; exact ⟨_, rfl, rfl⟩, ncols_eq hZ hne, ncols_eq hZ hne⟩
  have hW : Trunc n n w w := by
    have e : w = tab n fun t => w.getD t 0 := by rw [← hw]; exact tab_of_list _ _
    exact ⟨_, e, e⟩
  have hel : ∀ i, (word.getD i []).length ≤ Z.length := fun i => by
    rcases Nat.lt_or_ge i word.length with h | h
    · rw [List.getD_eq_getElem?_getD, List.getElem?_eq_getElem h]
      exact hfit _ (List.getElem_mem h)
    · rw [List.getD_eq_getElem?_getD, List.getElem?_eq_none h]; simp
  suffices h : Trunc n n (F.tmpK expf k total Z n word alpha w i) (F.tmpK expf k total Z n word alpha w i) from
    h.exists_tab
  induction i with
  | zero =>
    cases k
    · exact ⟨fun _ => 1, replicate_eq_tab _ _, replicate_eq_tab _ _⟩
    · exact ⟨fun _ => 0, replicate_eq_tab _ _, replicate_eq_tab _ _⟩
    · exact ⟨fun _ => 1, replicate_eq_tab _ _, replicate_eq_tab _ _⟩
  | succ i ih => exact Trunc.postK F expf k total hW i (Trunc.preK F expf k total hT hW i (hel i) ih)

/-- The computed row of the unweighted transform. -/
theorem issSingle_row (F : Fp R) (expf : R → R) (k : RKind) {X : Data R} {D n : ℕ} {words : List (SWord R)}
    (hadm : Admissible X D n words) {x : List R} (hx : ∃ a ∈ F.issSingle expf k words none X, x ∈ a) :
    ∃ (w : SWord R) (j : ℕ) (_ : w ∈ words) (hj : j < X.length),
      x = F.rowK expf k true X[j] n w.els (zeros w.els.length) (zeros n) (w.els.length - 1) := by
  obtain ⟨a, ha, hx⟩ := hx
  obtain ⟨w, hw, rfl⟩ := List.mem_map.1 ha
  obtain ⟨rows, hrows, rfl⟩ := List.mem_map.1 hx
  simp only [Fp.iteratedSums] at hrows
  obtain ⟨j, hj, rfl⟩ := List.getElem_of_mem hrows
  have hj' : j < X.length := by simpa using hj
  have hZ := hadm.data _ (List.getElem_mem hj')
  have hne : X[j] ≠ [] := by
    intro h; have := hZ.1; rw [h] at this; simp at this; have := hadm.dims; omega
  refine ⟨w, j, hw, hj', ?_⟩
  simp only [List.getElem_mapIdx, List.getD_eq_getElem?_getD, List.getElem?_map, List.getElem?_eq_getElem hj',
    Option.map_some, Option.getD_some]
  have hp := List.length_pos_iff.2 (hadm.letters w hw)
  rw [F.fastSingle_rows expf k true _ _ _ _ (by omega), ← List.getD_eq_getElem?_getD, tab_getD _ _ _ _ (by omega),
    ncols_eq hZ.2 hne]
  rfl

/-- **C154** (`Arctic`): the computed iterated sums never decrease over time. -/
theorem C154_monotone_arctic (F : Fp R) (expf : R → R) {X : Data R} {D n : ℕ} {words : List (SWord R)}
    (hadm : Admissible X D n words) : NonDecreasing (F.issSingle expf .arctic words none X) := by
  intro a ha x hx
  obtain ⟨w, j, hw, hj, rfl⟩ := issSingle_row F expf .arctic hadm ⟨a, ha, hx⟩
  have hZ := hadm.data _ (List.getElem_mem hj)
  have hne : X[j] ≠ [] := by
    intro h; have := hZ.1; rw [h] at this; simp at this; have := hadm.dims; omega
  have hp := List.length_pos_iff.2 (hadm.letters w hw)
  obtain ⟨y, hy⟩ := F.rowK_tab expf .arctic true hZ.2 hne (word := w.els)
    (fun el hel => by rw [hZ.1]; exact hadm.fits w hw el hel) (zeros w.els.length) (w := zeros n) (by simp)
    (w.els.length - 1)
  simp only [Fp.rowK, hy, Fp.outK, Fp.preK]
  obtain ⟨z, hz, _⟩ := Trunc.lettersAdd (m := n) F (Z' := X[j])
    ⟨fun d hd => by rw [row_tab hZ.2 hd]; exact ⟨_, rfl, rfl⟩, ncols_eq hZ.2 hne, ncols_eq hZ.2 hne⟩
    (el := w.els.getD (w.els.length - 1) [])
    (by
      rw [List.getD_eq_getElem?_getD, List.getElem?_eq_getElem (by omega : w.els.length - 1 < w.els.length), hZ.1]
      exact hadm.fits w hw _ (List.getElem_mem _)) (v := tab n y) (v' := tab n y) ⟨y, rfl, rfl⟩
  have hv : F.vscale (zeros n : List R) ((zeros w.els.length : List R).getD (w.els.length - 1) 0) = tab n fun _ => 0 := by
    simp [Fp.vscale, zeros_getD, F.zero]
  rw [hz, hv, Fp.vadd, zipWith_tab, maxLoop_tab, Fp.vsub, zipWith_tab]
  apply pairwise_tab
  intro s t hst _
  exact F.mono (sub_le_sub_right (runMax_mono _ hst) _)

/-- **C154** (`Bayesian`): the computed iterated sums never decrease over time. -/
theorem C154_monotone_bayesian (F : Fp R) {expf : R → R} (hexp : 0 ≤ expf 0) {X : Data R} {D n : ℕ}
    {words : List (SWord R)} (hadm : Admissible X D n words) :
    NonDecreasing (F.issSingle expf .bayesian words none X) := by
  intro a ha x hx
  obtain ⟨w, j, hw, hj, rfl⟩ := issSingle_row F expf .bayesian hadm ⟨a, ha, hx⟩
  have hZ := hadm.data _ (List.getElem_mem hj)
  have hne : X[j] ≠ [] := by
    intro h; have := hZ.1; rw [h] at this; simp at this; have := hadm.dims; omega
  have hp := List.length_pos_iff.2 (hadm.letters w hw)
  obtain ⟨y, hy⟩ := F.rowK_tab expf .bayesian true hZ.2 hne (word := w.els)
    (fun el hel => by rw [hZ.1]; exact hadm.fits w hw el hel) (zeros w.els.length) (w := zeros n) (by simp)
    (w.els.length - 1)
  simp only [Fp.rowK, hy, Fp.outK, Fp.preK]
  obtain ⟨z, hz, _⟩ := Trunc.lettersMul (m := n) F (Z' := X[j])
    ⟨fun d hd => by rw [row_tab hZ.2 hd]; exact ⟨_, rfl, rfl⟩, ncols_eq hZ.2 hne, ncols_eq hZ.2 hne⟩
    (el := w.els.getD (w.els.length - 1) [])
    (by
      rw [List.getD_eq_getElem?_getD, List.getElem?_eq_getElem (by omega : w.els.length - 1 < w.els.length), hZ.1]
      exact hadm.fits w hw _ (List.getElem_mem _)) (v := tab n y) (v' := tab n y) ⟨y, rfl, rfl⟩
  rw [hz, F.expW_tab expf (n := n) (by simp), F.expNegW_tab expf (n := n) (by simp)]
  simp only [Fp.vmul, zipWith_tab, maxLoop_tab]
  apply pairwise_tab
  intro s t hst _
  refine F.mono ?_
  simp only [zeros_getD, mul_zero]
  refine mul_le_mul_of_nonneg_right (runMax_mono _ hst) ?_
  rw [Fp.mexp, F.zero]
  have := F.mono hexp
  rwa [F.zero] at this

/-! `Reals`: the values that are added up must be non-negative. -/

theorem Fp.rnd_nonneg (F : Fp R) {x : R} (h : 0 ≤ x) : 0 ≤ F.rnd x := by
  have := F.mono h
  rwa [F.zero] at this

theorem Fp.rnd_nonpos (F : Fp R) {x : R} (h : x ≤ 0) : F.rnd x ≤ 0 := by
  have := F.mono h
  rwa [F.zero] at this

theorem Fp.mul_twice (F : Fp R) {v : R} (h : 0 ≤ v) (x : R) : 0 ≤ F.rnd (F.rnd (v * x) * x) := by
  apply F.rnd_nonneg
  rcases le_total 0 x with hx | hx
  · exact mul_nonneg (F.rnd_nonneg (mul_nonneg h hx)) hx
  · exact mul_nonneg_of_nonpos_of_nonpos (F.rnd_nonpos (mul_nonpos_of_nonneg_of_nonpos h hx)) hx

theorem Fp.div_twice (F : Fp R) {v : R} (h : 0 ≤ v) (x : R) : 0 ≤ F.rnd (F.rnd (v / x) / x) := by
  rw [div_eq_mul_inv, div_eq_mul_inv]; exact F.mul_twice h _

/-- A list of `n` non-negative numbers. -/
def NonnegV (n : ℕ) (v : List R) : Prop := ∃ x : ℕ → R, v = tab n x ∧ ∀ t < n, 0 ≤ x t

theorem nonneg_iter {n : ℕ} {g : R → R → R} {y : ℕ → R}
    (h : ∀ v t, t < n → 0 ≤ v → 0 ≤ g v (y t)) (j : ℕ) {v : List R} (hv : NonnegV n v) :
    NonnegV n ((fun t => List.zipWith g t (tab n y))^[j] v) := by
  induction j with
  | zero => exact hv
  | succ j ih =>
    rw [Function.iterate_succ_apply']
    obtain ⟨x, e, hx⟩ := ih
    rw [e]
    exact ⟨_, zipWith_tab _ _ _ _, fun t ht => h _ t ht (hx t ht)⟩

theorem nonneg_iter2 {n : ℕ} {g : R → R → R} {y : ℕ → R}
    (h : ∀ v t, t < n → 0 ≤ v → 0 ≤ g (g v (y t)) (y t)) (j : ℕ) (hj : Even j) {v : List R} (hv : NonnegV n v) :
    NonnegV n ((fun t => List.zipWith g t (tab n y))^[j] v) := by
  obtain ⟨i, rfl⟩ := hj
  induction i with
  | zero => exact hv
  | succ i ih =>
    rw [show i + 1 + (i + 1) = (i + i) + 1 + 1 by omega, Function.iterate_succ_apply', Function.iterate_succ_apply']
    obtain ⟨x, e, hx⟩ := ih
    rw [e]
    simp only [zipWith_tab]
    exact ⟨_, rfl, fun t ht => h _ t ht (hx t ht)⟩

/-- Every dimension of the letter occurs with an even exponent, or is non-negative. -/
def SignSafe (Z : List (List R)) (n : ℕ) (el : List ℤ) : Prop :=
  ∀ d < el.length, Even (el.getD d 0) ∨ ∀ t < n, 0 ≤ entry Z d t

theorem NonnegV.lettersMul (F : Fp R) {Z : List (List R)} {n : ℕ} (hZ : Rect Z n) {el : List ℤ} (hel : Fits Z el)
    (hs : SignSafe Z n el) {v : List R} (hv : NonnegV n v) : NonnegV n (F.lettersMul Z el v) := by
  refine enumFold_inv (fun letter occ tmp => F.letterMul Z letter occ tmp) (fun _ tmp => NonnegV n tmp) 0 el v hv ?_
  intro j hj s hsn
  rw [zero_add]
  have hsj := hs j hj
  rw [List.getD_eq_getElem?_getD, List.getElem?_eq_getElem hj, Option.getD_some] at hsj
  unfold Fp.letterMul
  rw [row_tab hZ (by unfold Fits at hel; omega)]
  generalize el[j] = occ at *
  split
  · next h1 =>
    rcases hsj with he | hp
    · refine nonneg_iter2 (fun v t _ h => F.mul_twice h _) _ ?_ hsn
      obtain ⟨m, rfl⟩ := Int.eq_ofNat_of_zero_le h1.le
      simpa using he
    · exact nonneg_iter (g := fun a b => F.rnd (a * b)) (fun v t ht h => F.rnd_nonneg (mul_nonneg h (hp t ht))) _ hsn
  · split
    · next h1 h2 =>
      rcases hsj with he | hp
      · refine nonneg_iter2 (fun v t _ h => F.div_twice h _) _ ?_ hsn
        obtain ⟨m, hm⟩ := Int.eq_ofNat_of_zero_le (by omega : 0 ≤ -occ)
        rw [hm]
        have : Even (-occ) := even_neg.2 he
        rw [hm] at this
        simpa using this
      · exact nonneg_iter (g := fun a b => F.rnd (a / b)) (fun v t ht h => F.rnd_nonneg (div_nonneg h (hp t ht))) _ hsn
    · exact hsn

theorem Fp.accum_rep (F : Fp R) (f : ℕ → R) (t : ℕ) : F.rnd (F.accum f t) = F.accum f t := by
  cases t with
  | zero => exact F.zero
  | succ t => exact F.idem _

/-- Rounded cumulative sums of non-negative numbers never decrease. -/
theorem Fp.accum_mono (F : Fp R) {f : ℕ → R} {n : ℕ} (h : ∀ t < n, 0 ≤ f t) {s t : ℕ} (hst : s ≤ t) (ht : t ≤ n) :
    F.accum f s ≤ F.accum f t := by
  induction t, hst using Nat.le_induction with
  | base => exact le_rfl
  | succ t hst ih =>
    refine (ih (by omega)).trans ?_
    conv_lhs => rw [← F.accum_rep f t]
    exact F.mono (le_add_of_nonneg_right (h t (by omega)))

theorem Fp.accum_nonneg (F : Fp R) {f : ℕ → R} {n : ℕ} (h : ∀ t < n, 0 ≤ f t) {t : ℕ} (ht : t ≤ n) :
    0 ≤ F.accum f t := F.accum_mono h (Nat.zero_le t) ht

/-- **C154** (`Reals`): if every dimension occurs with even exponents or has no negative values, the computed iterated sums
never decrease over time (and are never negative). -/
theorem C154_monotone_reals (F : Fp R) {expf : R → R} (hexp : 0 ≤ expf 0) {X : Data R} {D n : ℕ}
    {words : List (SWord R)} (hadm : Admissible X D n words)
    (hs : ∀ Z ∈ X, ∀ w ∈ words, ∀ el ∈ w.els, SignSafe Z n el) :
    NonDecreasing (F.issSingle expf .reals words none X) ∧
      ∀ a ∈ F.issSingle expf .reals words none X, ∀ x ∈ a, ∀ v ∈ x, 0 ≤ v := by
  have key : ∀ a ∈ F.issSingle expf .reals words none X, ∀ x ∈ a, ∃ y : ℕ → R, x = tab n y ∧ (∀ t < n, 0 ≤ y t) ∧
      ∀ s t, s ≤ t → t < n → y s ≤ y t := by
    intro a ha x hx
    obtain ⟨w, j, hw, hj, rfl⟩ := issSingle_row F expf .reals hadm ⟨a, ha, hx⟩
    have hZ := hadm.data _ (List.getElem_mem hj)
    have hp := List.length_pos_iff.2 (hadm.letters w hw)
    have h0 : (0 : R) ≤ F.mexp expf 0 := by
      rw [Fp.mexp, F.zero]; exact F.rnd_nonneg hexp
    have hpre : ∀ i < w.els.length, ∀ v, NonnegV n v → ∃ f : ℕ → R, (∀ t < n, 0 ≤ f t) ∧
        F.preK expf .reals true X[j] (zeros w.els.length) (zeros n) i (w.els.getD i []) v
          = tab n fun t => F.accum f (t + 1) := by
      intro i hi v hv
      have hm : w.els.getD i [] = w.els[i] := by simp [List.getD_eq_getElem?_getD, hi]
      obtain ⟨z, hz, hzn⟩ := hv.lettersMul F hZ.2 (el := w.els[i])
        (by unfold Fits; rw [hZ.1]; exact hadm.fits w hw _ (List.getElem_mem hi))
        (hs _ (List.getElem_mem hj) w hw _ (List.getElem_mem hi))
      simp only [Fp.preK]
      rw [hm, hz, F.expW_tab expf (n := n) (by simp), Fp.vmul, zipWith_tab, F.cumsum_tab]
      refine ⟨_, fun t ht => ?_, rfl⟩
      simp only [zeros_getD, mul_zero]
      exact F.rnd_nonneg (mul_nonneg (hzn t ht) h0)
    have htmp : ∀ i < w.els.length, NonnegV n (F.tmpK expf .reals true X[j] n w.els (zeros w.els.length) (zeros n) i) := by
      intro i hi
      induction i with
      | zero => exact ⟨fun _ => 1, replicate_eq_tab _ _, fun _ _ => zero_le_one⟩
      | succ i ih =>
        obtain ⟨f, hf, e⟩ := hpre i (by omega) _ (ih (by omega))
        rw [Fp.tmpK, e]
        simp only [Fp.postK]
        rw [roll1z_tab, F.expNegW_tab expf (n := n) (by simp), Fp.vmul, zipWith_tab]
        refine ⟨_, rfl, fun t ht => F.rnd_nonneg (mul_nonneg ?_ ?_)⟩
        · split
          · exact le_rfl
          · exact F.accum_nonneg hf (by omega)
        · simpa only [zeros_getD, mul_zero] using h0
    obtain ⟨f, hf, e⟩ := hpre (w.els.length - 1) (by omega) _ (htmp (w.els.length - 1) (by omega))
    simp only [Fp.rowK]
    rw [e]
    simp only [Fp.outK]
    rw [F.expNegW_tab expf (n := n) (by simp), Fp.vmul, zipWith_tab]
    refine ⟨_, rfl, fun t ht => ?_, fun s t hst ht => ?_⟩
    · refine F.rnd_nonneg (mul_nonneg (F.accum_nonneg hf (by omega)) ?_)
      simpa only [zeros_getD, mul_zero] using h0
    · refine F.mono ?_
      simp only [zeros_getD, mul_zero]
      exact mul_le_mul_of_nonneg_right (F.accum_mono hf (by omega) (by omega)) h0
  constructor
  · intro a ha x hx
    obtain ⟨y, rfl, _, h⟩ := key a ha x hx
    exact pairwise_tab h
  · intro a ha x hx v hv
    obtain ⟨y, rfl, h, _⟩ := key a ha x hx
    obtain ⟨t, ht, rfl⟩ := mem_tab.1 hv
    exact h t ht

/-- The hypotheses are met by the example of `Rounded2`. -/
example : NonDecreasing ((Fp.binary 2 : Fp ℚ).issSingle (fun _ => 1) .reals [RoundedExample.w] none RoundedExample.X) :=
  (C154_monotone_reals (Fp.binary 2) (by simp) RoundedExample.adm
    (fun _ hZ _ _ _ _ d _ => Or.inr fun t _ => RoundedExample.nonneg _ hZ d t)).1

example : NonDecreasing ((Fp.binary 2 : Fp ℚ).issSingle (fun _ => 1) .arctic [RoundedExample.w] none RoundedExample.X) :=
  C154_monotone_arctic (Fp.binary 2) _ RoundedExample.adm

example : NonDecreasing ((Fp.binary 2 : Fp ℚ).issSingle (fun _ => 1) .bayesian [RoundedExample.w] none RoundedExample.X) :=
  C154_monotone_bayesian (Fp.binary 2) (by simp) RoundedExample.adm

/-- The first two of four time steps, two iterated sums of `[1][1][11]`. -/
example : (Fp.binary 2 : Fp ℚ).iteratedSums (fun _ => 1) .reals (truncate 2 RoundedExample.X) RoundedExample.w 2 none
    = ((Fp.binary 2 : Fp ℚ).iteratedSums (fun _ => 1) .reals RoundedExample.X RoundedExample.w 2 none).map
        fun rows => rows.map (List.take 2) :=
  C154_causal (Fp.binary 2) _ .reals RoundedExample.adm.data RoundedExample.adm.dims
    (RoundedExample.adm.fits _ (by simp)) (by decide) (by omega)

/-- The first of the last two rows of `[1][1][11]` is the row of `[1][1]`. -/
example : (((Fp.binary 2 : Fp ℚ).iteratedSums (fun _ => 1) .reals RoundedExample.X RoundedExample.w 2 none).getD 0 []).getD 0 []
    = (((Fp.binary 2 : Fp ℚ).iteratedSums (fun _ => 1) .reals RoundedExample.X ⟨[[1], [1]], 1, "[1][1]".toList, none⟩ 1
        none).getD 0 []).getD 0 [] :=
  (C154_prefix (Fp.binary 2) _ .reals RoundedExample.X RoundedExample.w none (m := 2) (by decide) 0 (by decide)).2 0
    (by omega) _ rfl (by decide +kernel)

end Fruits
