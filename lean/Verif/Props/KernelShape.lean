import Verif.ISS
import Verif.CosWISS

/-! # The shapes of iterated sums depend on the shape of the series only -/

set_option linter.unusedSectionVars false

namespace Fruits
variable {R : Type} [Field R] [LinearOrder R] [IsStrictOrderedRing R] [FloorRing R]

/-- The lengths of the rows. -/
def lens (A : List (List R)) : List ℕ := A.map List.length

theorem lens_row {A B : List (List R)} (h : lens A = lens B) (i : ℕ) : (row A i).length = (row B i).length := by
  have := congrArg (fun l : List ℕ => l[i]?) h
  simp only [lens, List.getElem?_map] at this
  simp only [row, List.getD_eq_getElem?_getD]
  rcases hA : A[i]? with _ | a <;> rcases hB : B[i]? with _ | b <;> rw [hA, hB] at this <;> simp_all

theorem lens_ncols {A B : List (List R)} (h : lens A = lens B) : ncols A = ncols B := by
  cases A <;> cases B <;> simp_all [lens, ncols]

theorem lens_set {A B : List (List R)} (h : lens A = lens B) (i : ℕ) {x y : List R} (hx : x.length = y.length) :
    lens (A.set i x) = lens (B.set i y) := by
  simp only [lens, List.map_set] at h ⊢
  rw [h, hx]

theorem lens_length {A B : List (List R)} (h : lens A = lens B) : A.length = B.length := by
  simpa [lens] using congrArg List.length h

@[simp] theorem vadd_length (x y : List R) : (vadd x y).length = min x.length y.length := by simp [vadd]
@[simp] theorem vsub_length (x y : List R) : (vsub x y).length = min x.length y.length := by simp [vsub]
@[simp] theorem vmul_length (x y : List R) : (vmul x y).length = min x.length y.length := by simp [vmul]
@[simp] theorem vdiv_length (x y : List R) : (vdiv x y).length = min x.length y.length := by simp [vdiv]
@[simp] theorem vscale_length (x : List R) (a : R) : (vscale x a).length = x.length := by simp [vscale]
@[simp] theorem expW_length (e : R → R) (x : List R) (a : R) : (expW e x a).length = x.length := by simp [expW]
@[simp] theorem expNegW_length (e : R → R) (x : List R) (a : R) : (expNegW e x a).length = x.length := by simp [expNegW]

theorem cumsumFrom_length (x : List R) : ∀ a : R, (cumsumFrom a x).length = x.length := by
  induction x with
  | nil => intro a; rfl
  | cons b x ih => intro a; simp [cumsumFrom, ih]

@[simp] theorem cumsum_len (x : List R) : (cumsum x).length = x.length := cumsumFrom_length x 0

theorem maxAccFrom_length (x : List R) : ∀ a : R, (maxAccFrom a x).length = x.length := by
  induction x with
  | nil => intro a; rfl
  | cons b x ih => intro a; simp [maxAccFrom, ih]

@[simp] theorem maxAcc_len (x : List R) : (maxAcc x).length = x.length := by
  cases x <;> simp [maxAcc, maxAccFrom_length]

@[simp] theorem roll1z_len (x : List R) : (roll1z x).length = x.length := by
  simp [roll1z, roll1]

theorem foldl_length {α β : Type} (f : List β → α → List β) (hf : ∀ x a, (f x a).length = x.length) : ∀ (l : List α) (x : List β),
    (l.foldl f x).length = x.length
  | [], _ => rfl
  | a :: l, x => by rw [List.foldl_cons, foldl_length f hf l, hf]

@[simp] theorem maxLoop_len (x : List R) : (maxLoop x).length = x.length := by
  unfold maxLoop
  exact foldl_length _ (by simp) _ _

@[simp] theorem maxRowLoop_len (r x : List R) : (maxRowLoop r x).length = r.length := by
  unfold maxRowLoop
  rw [foldl_length _ (by simp)]
  simp

/-- Two runs of a loop stay related if every step keeps the relation. -/
theorem enumFold_rel {α σ τ : Type} (f : ℕ → α → σ → σ) (g : ℕ → α → τ → τ) (Rel : σ → τ → Prop)
    (h : ∀ k a s t, Rel s t → Rel (f k a s) (g k a t)) : ∀ (xs : List α) (k : ℕ) (s : σ) (t : τ), Rel s t →
      Rel (enumFold f k xs s) (enumFold g k xs t)
  | [], _, _, _, h0 => h0
  | a :: xs, k, s, t, h0 => by
    simp only [enumFold]
    exact enumFold_rel f g Rel h xs (k + 1) _ _ (h k a s t h0)

theorem letterMul_lens {Z Z' : List (List R)} (hZ : lens Z = lens Z') (l : ℕ) (occ : ℤ) {x x' : List R} (h : x.length = x'.length) :
    (letterMul Z l occ x).length = (letterMul Z' l occ x').length := by
  have it : ∀ (op : R → R → R) (m : ℕ), ((fun t => List.zipWith op t (row Z l))^[m] x).length
      = ((fun t => List.zipWith op t (row Z' l))^[m] x').length := by
    intro op m
    induction m with
    | zero => exact h
    | succ m ih =>
      rw [Function.iterate_succ_apply', Function.iterate_succ_apply']
      simp [ih, lens_row hZ l]
  unfold letterMul
  split
  · exact it (· * ·) _
  split
  · exact it (· / ·) _
  exact h

theorem lettersMul_lens {Z Z' : List (List R)} (hZ : lens Z = lens Z') (el : List ℤ) {x x' : List R} (h : x.length = x'.length) :
    (lettersMul Z el x).length = (lettersMul Z' el x').length :=
  enumFold_rel _ _ (fun (x x' : List R) => x.length = x'.length) (fun k a _ _ h => letterMul_lens hZ k a h) _ _ _ _ h

theorem lettersAdd_lens {Z Z' : List (List R)} (hZ : lens Z = lens Z') (el : List ℤ) {x x' : List R} (h : x.length = x'.length) :
    (lettersAdd Z el x).length = (lettersAdd Z' el x').length :=
  enumFold_rel _ _ (fun (x x' : List R) => x.length = x'.length) (fun k a _ _ h => by simp [h, lens_row hZ k]) _ _ _ _ h

/-- The states of two kernels have the same shapes. -/
def SameState (s t : List R × List (List R)) : Prop := s.1.length = t.1.length ∧ lens s.2 = lens t.2

theorem lens_replicate (e n : ℕ) (a : R) : lens (List.replicate e (List.replicate n a)) = List.replicate e n := by simp [lens]

theorem lens_replicate_zeros (e n : ℕ) : lens (List.replicate e (zeros n : List R)) = List.replicate e n := by simp [lens, zeros]
theorem lens_replicate_ones (e n : ℕ) : lens (List.replicate e (ones n : List R)) = List.replicate e n := by simp [lens, ones]

theorem realsSingle_lens (expf : R → R) {Z Z' : List (List R)} (hZ : lens Z = lens Z') (word : List (List ℤ)) (alpha : List R)
    {l l' : List R} (hl : l.length = l'.length) (ext : ℕ) :
    lens (realsSingle expf Z word alpha l ext) = lens (realsSingle expf Z' word alpha l' ext) := by
  unfold realsSingle
  refine (enumFold_rel _ _ SameState ?_ word 0 _ _ ?_).2
  · rintro k el s t ⟨h1, h2⟩
    have h3 : (if k > 0 then roll1z s.1 else s.1).length = (if k > 0 then roll1z t.1 else t.1).length := by split <;> simp [h1]
    have h4 := lettersMul_lens hZ el h3
    have h5 : (if k > 0 then vmul (lettersMul Z el (if k > 0 then roll1z s.1 else s.1)) (expNegW expf l (alpha.getD (k - 1) 0))
          else lettersMul Z el (if k > 0 then roll1z s.1 else s.1)).length
        = (if k > 0 then vmul (lettersMul Z' el (if k > 0 then roll1z t.1 else t.1)) (expNegW expf l' (alpha.getD (k - 1) 0))
          else lettersMul Z' el (if k > 0 then roll1z t.1 else t.1)).length := by
      by_cases hk : k > 0
      · simp only [if_pos hk] at h4 ⊢; simp [h4, hl]
      · simpa only [if_neg hk] using h4
    refine ⟨?_, ?_⟩
    · simp only
      split
      · simp only [cumsum_len, vmul_length, expW_length, h5, hl]
      · exact h5
    · simp only
      split
      · exact lens_set h2 _ (by simp only [cumsum_len, h5])
      · exact h2
  · exact ⟨by simp [lens_ncols hZ], by simp only [lens_ncols hZ]⟩

theorem totalReals_lens (expf : R → R) {Z Z' : List (List R)} (hZ : lens Z = lens Z') (word : List (List ℤ)) (alpha : List R)
    {l l' : List R} (hl : l.length = l'.length) (ext : ℕ) :
    lens (totalReals expf Z word alpha l ext) = lens (totalReals expf Z' word alpha l' ext) := by
  unfold totalReals
  refine (enumFold_rel _ _ SameState ?_ word 0 _ _ ?_).2
  · rintro k el s t ⟨h1, h2⟩
    have h4 := lettersMul_lens hZ el h1
    refine ⟨?_, ?_⟩
    · simp only
      split <;> simp [h4, hl]
    · simp only
      split
      · exact lens_set h2 _ (by simp [h4, hl])
      · exact h2
  · exact ⟨by simp [lens_ncols hZ], by simp only [lens_ncols hZ]⟩

theorem arcticSingle_lens {Z Z' : List (List R)} (hZ : lens Z = lens Z') (word : List (List ℤ)) (alpha : List R)
    {l l' : List R} (hl : l.length = l'.length) (ext : ℕ) :
    lens (arcticSingle Z word alpha l ext) = lens (arcticSingle Z' word alpha l' ext) := by
  unfold arcticSingle
  refine (enumFold_rel _ _ SameState ?_ word 0 _ _ ?_).2
  · rintro k el s t ⟨h1, h2⟩
    have h4 := lettersAdd_lens hZ el h1
    refine ⟨?_, ?_⟩
    · simp only
      split <;> split <;> simp [h4, hl]
    · simp only
      split
      · refine lens_set h2 _ ?_
        rw [maxRowLoop_len, maxRowLoop_len]
        exact lens_row h2 _
      · exact h2
  · exact ⟨by simp [lens_ncols hZ], by simp only [lens_ncols hZ]⟩

theorem totalArctic_lens {Z Z' : List (List R)} (hZ : lens Z = lens Z') (word : List (List ℤ)) (alpha : List R)
    {l l' : List R} (hl : l.length = l'.length) (ext : ℕ) :
    lens (totalArctic Z word alpha l ext) = lens (totalArctic Z' word alpha l' ext) := by
  unfold totalArctic
  refine (enumFold_rel _ _ SameState ?_ word 0 _ _ ?_).2
  · rintro k el s t ⟨h1, h2⟩
    have h4 := lettersAdd_lens hZ el h1
    refine ⟨?_, ?_⟩
    · simp only
      split <;> simp [h4, hl]
    · simp only
      split
      · exact lens_set h2 _ (by simp [h4, hl])
      · exact h2
  · exact ⟨by simp [lens_ncols hZ], by simp only [lens_ncols hZ]⟩

theorem bayesianSingle_lens (expf : R → R) {Z Z' : List (List R)} (hZ : lens Z = lens Z') (word : List (List ℤ)) (alpha : List R)
    {l l' : List R} (hl : l.length = l'.length) (ext : ℕ) :
    lens (bayesianSingle expf Z word alpha l ext) = lens (bayesianSingle expf Z' word alpha l' ext) := by
  unfold bayesianSingle
  refine (enumFold_rel _ _ SameState ?_ word 0 _ _ ?_).2
  · rintro k el s t ⟨h1, h2⟩
    have h4 := lettersMul_lens hZ el h1
    refine ⟨?_, ?_⟩
    · simp only
      split <;> split <;> simp [h4, hl]
    · simp only
      split
      · refine lens_set h2 _ ?_
        rw [maxRowLoop_len, maxRowLoop_len]
        exact lens_row h2 _
      · exact h2
  · exact ⟨by simp [lens_ncols hZ], by simp only [lens_ncols hZ]⟩

theorem totalBayesian_lens (expf : R → R) {Z Z' : List (List R)} (hZ : lens Z = lens Z') (word : List (List ℤ)) (alpha : List R)
    {l l' : List R} (hl : l.length = l'.length) (ext : ℕ) :
    lens (totalBayesian expf Z word alpha l ext) = lens (totalBayesian expf Z' word alpha l' ext) := by
  unfold totalBayesian
  refine (enumFold_rel _ _ SameState ?_ word 0 _ _ ?_).2
  · rintro k el s t ⟨h1, h2⟩
    have h4 := lettersMul_lens hZ el h1
    refine ⟨?_, ?_⟩
    · simp only
      split <;> simp [h4, hl]
    · simp only
      split
      · exact lens_set h2 _ (by simp [h4, hl])
      · exact h2
  · exact ⟨by simp [lens_ncols hZ], by simp only [lens_ncols hZ]⟩

/-! ### Words with general letters -/

/-- A letter whose values have a length that depends on the shape of the series only (for example: one value per time step). -/
def LetterShaped (f : BoundLetter R) : Prop := ∀ Z Z' : List (List R), lens Z = lens Z' → (f Z).length = (f Z').length

theorem lettersOp_lens (ident : R) (op : R → R → R) {Z Z' : List (List R)} (hZ : lens Z = lens Z') (el : List (BoundLetter R))
    (hel : ∀ f ∈ el, LetterShaped f) : (lettersOp ident op Z el).length = (lettersOp ident op Z' el).length := by
  unfold lettersOp
  have : ∀ (el : List (BoundLetter R)), (∀ f ∈ el, LetterShaped f) → ∀ x x' : List R, x.length = x'.length →
      (el.foldl (fun C letter => List.zipWith op C (letter Z)) x).length
        = (el.foldl (fun C letter => List.zipWith op C (letter Z')) x').length := by
    intro el
    induction el with
    | nil => intro _ x x' h; exact h
    | cons f el ih =>
      intro hf x x' h
      rw [List.foldl_cons, List.foldl_cons]
      refine ih (fun g hg => hf g (by simp [hg])) _ _ ?_
      simp [h, hf f (by simp) Z Z' hZ]
  exact this el hel _ _ (by simp [lens_ncols hZ])

theorem enumFold_rel_mem {α σ τ : Type} (f : ℕ → α → σ → σ) (g : ℕ → α → τ → τ) (Rel : σ → τ → Prop) :
    ∀ (xs : List α), (∀ k, ∀ a ∈ xs, ∀ s t, Rel s t → Rel (f k a s) (g k a t)) → ∀ (k : ℕ) (s : σ) (t : τ), Rel s t →
      Rel (enumFold f k xs s) (enumFold g k xs t)
  | [], _, _, _, _, h0 => h0
  | a :: xs, h, k, s, t, h0 => by
    simp only [enumFold]
    exact enumFold_rel_mem f g Rel xs (fun k b hb => h k b (by simp [hb])) (k + 1) _ _ (h k a (by simp) s t h0)

theorem genericSingle_lens (ident : R) (op : R → R → R) (cum : List R → List R) (hcum : ∀ x, (cum x).length = x.length)
    {Z Z' : List (List R)} (hZ : lens Z = lens Z') (word : List (List (BoundLetter R)))
    (hw : ∀ el ∈ word, ∀ f ∈ el, LetterShaped f) (ext : ℕ) :
    lens (genericSingle ident op cum Z word ext) = lens (genericSingle ident op cum Z' word ext) := by
  unfold genericSingle
  refine (enumFold_rel_mem _ _ SameState word ?_ 0 _ _ ?_).2
  · rintro k el hel s t ⟨h1, h2⟩
    have h4 := lettersOp_lens ident op hZ el (hw el hel)
    have h3 : (if k > 0 then roll1z s.1 else s.1).length = (if k > 0 then roll1z t.1 else t.1).length := by split <;> simp [h1]
    refine ⟨?_, ?_⟩
    · simp [setFrom, hcum, h3, h4]
    · simp only
      split
      · exact lens_set h2 _ (by simp [setFrom, hcum, h3, h4])
      · exact h2
  · exact ⟨by simp [lens_ncols hZ], by simp only [lens_ncols hZ]⟩

theorem arcticGenericSingle_lens {Z Z' : List (List R)} (hZ : lens Z = lens Z') (word : List (List (BoundLetter R)))
    (hw : ∀ el ∈ word, ∀ f ∈ el, LetterShaped f) (ext : ℕ) :
    lens (arcticGenericSingle Z word ext) = lens (arcticGenericSingle Z' word ext) := by
  unfold arcticGenericSingle
  refine (enumFold_rel_mem _ _ SameState word ?_ 0 _ _ ?_).2
  · rintro k el hel s t ⟨h1, h2⟩
    have h4 := lettersOp_lens (0 : R) (· + ·) hZ el (hw el hel)
    refine ⟨?_, ?_⟩
    · simp [h1, h4]
    · simp only
      split
      · exact lens_set h2 _ (by simp [h1, h4])
      · exact h2
  · exact ⟨by simp [lens_ncols hZ], by simp only [lens_ncols hZ]⟩

theorem slowSingle_lens (k : SemiringKind) {Z Z' : List (List R)} (hZ : lens Z = lens Z') (word : List (List (BoundLetter R)))
    (hw : ∀ el ∈ word, ∀ f ∈ el, LetterShaped f) (ext : ℕ) :
    lens (slowSingle k Z word ext) = lens (slowSingle k Z' word ext) := by
  cases k <;> simp only [slowSingle]
  · exact genericSingle_lens _ _ _ (by simp) hZ word hw ext
  · exact arcticGenericSingle_lens hZ word hw ext
  · exact arcticGenericSingle_lens hZ word hw ext
  · exact genericSingle_lens _ _ _ (by simp) hZ word hw ext

/-! ### `Arctic(argmax=True)` -/

theorem argmaxRows_spec (tmp : List R) : (argmaxRows tmp).1.length = tmp.length ∧ (argmaxRows tmp).2.length = tmp.length ∧
    (argmaxRows tmp).2.getD 0 0 = 0 := by
  unfold argmaxRows
  have : ∀ (l : List ℕ) (r : List R × List R), (∀ i ∈ l, 1 ≤ i) → r.1.length = tmp.length → r.2.length = tmp.length → r.2.getD 0 0 = 0 →
      let q := l.foldl (fun (r : List R × List R) i =>
        if r.1.getD (i - 1) 0 ≥ tmp.getD i 0 then (r.1.set i (r.1.getD (i - 1) 0), r.2.set i (r.2.getD (i - 1) 0))
        else (r.1.set i (tmp.getD i 0), r.2.set i (i : R))) r
      q.1.length = tmp.length ∧ q.2.length = tmp.length ∧ q.2.getD 0 0 = 0 := by
    intro l
    induction l with
    | nil => intro r _ h1 h2 h3; exact ⟨h1, h2, h3⟩
    | cons i l ih =>
      intro r hl h1 h2 h3
      have hi : i ≠ 0 := by have := hl i (by simp); omega
      simp only [List.foldl_cons]
      refine ih _ (fun j hj => hl j (by simp [hj])) ?_ ?_ ?_
      · split <;> simp [h1]
      · split <;> simp [h2]
      · split <;> simpa [List.getD_eq_getElem?_getD, List.getElem?_set, hi] using h3
  refine this _ _ (by intro i hi; rw [List.mem_range'] at hi; obtain ⟨j, _, rfl⟩ := hi; omega) (by simp) (by simp) ?_
  rw [zeros_eq]
  cases tmp <;> simp [tab]

/-- The arrays after the first loop of `_arctic_argmax_single`; `t` is the length of `tmp`. -/
structure ArgInv (n k t : ℕ) (res : List (List R)) : Prop where
  le : t ≤ n
  small : ∀ i, (row res (2 * i + 1)).length ≤ n
  head : ∀ i, (row res (2 * i + 1)).getD 0 0 = 0
  rest : ∀ i, k ≤ i → 2 * i + 1 < res.length → row res (2 * i + 1) = zeros n
  short : ∀ i, 2 * i + 1 < res.length → (row res (2 * i + 1)).length < n → t < n
  later : ∀ i j, i < j → 2 * i + 1 < res.length → (row res (2 * i + 1)).length < n → (row res (2 * j + 1)).getD (n - 1) 0 = 0

theorem row_set (A : List (List R)) (i j : ℕ) (x : List R) :
    row (A.set i x) j = if i = j ∧ i < A.length then x else row A j := by
  simp only [row, List.getD_eq_getElem?_getD, List.getElem?_set]
  by_cases h : i = j
  · subst h
    by_cases hi : i < A.length
    · simp [hi]
    · simp [hi]
  · simp [h]

theorem getD_short (x : List R) (j : ℕ) (h : x.length ≤ j) : x.getD j 0 = 0 := by
  simp [List.getD_eq_getElem?_getD, List.getElem?_eq_none h]

theorem zeros_getD (n j : ℕ) : (zeros n : List R).getD j 0 = 0 := by
  by_cases h : j < n
  · simp [h, tab, List.getD_eq_getElem?_getD]
  · exact getD_short _ _ (by simp; omega)

theorem row_ge (A : List (List R)) (i : ℕ) (h : A.length ≤ i) : row A i = [] := by
  simp [row, List.getD_eq_getElem?_getD, List.getElem?_eq_none h]

theorem ArgInv.set {n k t t' : ℕ} {res : List (List R)} (h : ArgInv n k t res) (ht : t' ≤ t) {a b : List R} (hb : b.length ≤ t) (hb' : t' ≤ b.length)
    (hb0 : b.getD 0 0 = 0) : ArgInv n (k + 1) t' ((res.set (2 * k) a).set (2 * k + 1) b) := by
  have hr : ∀ i, row ((res.set (2 * k) a).set (2 * k + 1) b) (2 * i + 1)
      = if k = i ∧ 2 * k + 1 < res.length then b else row res (2 * i + 1) := by
    intro i
    rw [row_set, row_set, List.length_set, if_neg (by omega : ¬ (2 * k = 2 * i + 1 ∧ 2 * k < res.length))]
    by_cases hi : k = i
    · subst hi; simp
    · rw [if_neg (by omega), if_neg (by omega)]
  have hle := h.le
  constructor
  · omega
  · intro i
    rw [hr]; split
    · omega
    · exact h.small i
  · intro i
    rw [hr]; split
    · exact hb0
    · exact h.head i
  · intro i hi hl
    rw [hr, if_neg (by omega)]
    exact h.rest i (by omega) (by simpa using hl)
  · intro i hl hs
    rw [hr] at hs
    split at hs
    · omega
    · have := h.short i (by simpa using hl) hs
      omega
  · intro i j hij hl hs
    rw [hr] at hs
    rw [hr]
    simp only [List.length_set] at hl
    by_cases hj : k = j ∧ 2 * k + 1 < res.length
    · rw [if_pos hj]
      rw [if_neg (by omega)] at hs
      have := h.short i hl hs
      exact getD_short _ _ (by omega)
    · rw [if_neg hj]
      by_cases hi : k = i ∧ 2 * k + 1 < res.length
      · by_cases hl' : 2 * j + 1 < res.length
        · rw [h.rest j (by omega) hl', zeros_getD]
        · rw [row_ge _ _ (by omega)]; rfl
      · rw [if_neg hi] at hs
        exact h.later i j hij hl hs

theorem ArgInv.mono {n k t : ℕ} {res : List (List R)} (h : ArgInv n k t res) : ArgInv n (k + 1) t res :=
  { h with rest := fun i hi => h.rest i (by omega) }

/-- One step of the first loop of `_arctic_argmax_single`. -/
def argLoopStep (Z : List (List R)) (W : ℕ) (alpha l : List R) (k : ℕ) (el : List ℤ) (s : List R × List (List R)) : List R × List (List R) :=
      let tmp := s.1
      let result := s.2
      if el.all (· == 0) then (tmp, result) else
      let C := lettersAdd Z el (zeros (ncols Z))
      let tmp := vadd tmp C
      let tmp := if k > 0 then vsub tmp (vscale l (alpha.getD (k - 1) 0)) else tmp
      let rows := argmaxRows tmp
      let result := (result.set (2 * k) rows.1).set (2 * k + 1) rows.2
      let tmp := if k < W - 1
        then maxLoop (vadd tmp (vscale l (alpha.getD k 0))) else tmp
      (tmp, result)

theorem argmaxLoop_fold (Z : List (List R)) (word : List (List ℤ)) (alpha l : List R) : argmaxLoop Z word alpha l =
    (enumFold (argLoopStep Z word.length alpha l) 0 word (zeros (ncols Z), List.replicate (2 * word.length) (zeros (ncols Z)))).2 := rfl

theorem argmaxLoop_inv (Z : List (List R)) (word : List (List ℤ)) (alpha l : List R) :
    (argmaxLoop Z word alpha l).length = 2 * word.length ∧
    ∃ t, ArgInv (ncols Z) word.length t (argmaxLoop Z word alpha l) := by
  rw [argmaxLoop_fold]
  have := enumFold_inv (argLoopStep Z word.length alpha l)
      (fun k s => s.2.length = 2 * word.length ∧ ∃ t, s.1.length ≤ t ∧ ArgInv (ncols Z) k t s.2 ∧ t = s.1.length) 0 word
      (zeros (ncols Z), List.replicate (2 * word.length) (zeros (ncols Z))) ?_ ?_
  · rw [Nat.zero_add] at this
    obtain ⟨h1, t, _, h2, _⟩ := this
    exact ⟨h1, t, h2⟩
  · refine ⟨by simp, ncols Z, by simp, ?_, by simp⟩
    have hr : ∀ i, row (List.replicate (2 * word.length) (zeros (ncols Z) : List R)) i = if i < 2 * word.length then zeros (ncols Z) else [] := by
      intro i
      simp only [row, List.getD_eq_getElem?_getD, List.getElem?_replicate]
      split <;> rfl
    constructor
    · exact le_rfl
    · intro i; rw [hr]; split <;> simp
    · intro i; rw [hr]; split
      · exact zeros_getD _ _
      · rfl
    · intro i _ hl; rw [hr, if_pos (by simpa using hl)]
    · intro i hl hs
      rw [hr, if_pos (by simpa using hl)] at hs
      simp at hs
    · intro i j _ _ _
      rw [hr]; split
      · exact zeros_getD _ _
      · rfl
  · rintro j hj ⟨tmp, res⟩ ⟨h1, t, -, h2, rfl⟩
    simp only [Nat.zero_add] at h2 ⊢
    simp only at h1 h2
    unfold argLoopStep
    split
    · exact ⟨h1, _, le_rfl, h2.mono, rfl⟩
    · refine ⟨by simpa using h1, _, le_rfl, ?_, rfl⟩
      dsimp only
      generalize hT : (if j > 0 then vsub (vadd tmp (lettersAdd Z word[j] (zeros (ncols Z)))) (vscale l (alpha.getD (j - 1) 0))
        else vadd tmp (lettersAdd Z word[j] (zeros (ncols Z)))) = T
      have hle : T.length ≤ tmp.length := by
        rw [← hT]
        split <;> simp
      obtain ⟨a1, a2, a3⟩ := argmaxRows_spec T
      refine h2.set ?_ ?_ ?_ a3
      · split
        · rw [maxLoop_len, vadd_length]; omega
        · exact hle
      · rw [a2]; exact hle
      · rw [a2]
        split
        · rw [maxLoop_len, vadd_length]; omega
        · exact le_rfl

theorem argmaxLoop_lens {Z Z' : List (List R)} (hZ : lens Z = lens Z') (word : List (List ℤ)) (alpha : List R)
    {l l' : List R} (hl : l.length = l'.length) : lens (argmaxLoop Z word alpha l) = lens (argmaxLoop Z' word alpha l') := by
  rw [argmaxLoop_fold, argmaxLoop_fold]
  refine (enumFold_rel _ _ SameState ?_ word 0 _ _ ?_).2
  · rintro k el s t ⟨h1, h2⟩
    unfold argLoopStep
    simp only
    split
    · exact ⟨h1, h2⟩
    · have h4 := lettersAdd_lens hZ el (x := zeros (ncols Z)) (x' := zeros (ncols Z')) (by simp [lens_ncols hZ])
      have h5 : (if k > 0 then vsub (vadd s.1 (lettersAdd Z el (zeros (ncols Z)))) (vscale l (alpha.getD (k - 1) 0))
            else vadd s.1 (lettersAdd Z el (zeros (ncols Z)))).length
          = (if k > 0 then vsub (vadd t.1 (lettersAdd Z' el (zeros (ncols Z')))) (vscale l' (alpha.getD (k - 1) 0))
            else vadd t.1 (lettersAdd Z' el (zeros (ncols Z')))).length := by
        split
        · rw [vsub_length, vsub_length, vadd_length, vadd_length, h1, h4, vscale_length, vscale_length, hl]
        · rw [vadd_length, vadd_length, h1, h4]
      refine ⟨?_, ?_⟩
      · simp only
        split
        · rw [maxLoop_len, maxLoop_len, vadd_length, vadd_length, h5, vscale_length, vscale_length, hl]
        · exact h5
      · refine lens_set (lens_set h2 _ ?_) _ ?_
        · rw [(argmaxRows_spec _).1, (argmaxRows_spec _).1]; exact h5
        · rw [(argmaxRows_spec _).2.1, (argmaxRows_spec _).2.1]; exact h5
  · exact ⟨by simp [lens_ncols hZ], by simp only [lens_ncols hZ]⟩

/-- What `translateInner` needs of the row it starts from. -/
def TrInv (n s : ℕ) (res : List (List R)) (r : List R) : Prop :=
  ∀ i < s, (row res (2 * i + 1)).length < n → r.getD (n - 1) 0 = 0

theorem translateInner_lens (n : ℕ) {res res' : List (List R)} (hres : lens res = lens res') (W : ℕ) (hW : res.length = 2 * W)
    {t t' : ℕ} (h : ArgInv n W t res) (h' : ArgInv n W t' res') (index : ℕ) : ∀ (s : ℕ), s ≤ W → ∀ tr tr' : List (List R),
      lens tr = lens tr' → TrInv n s res (row tr (index + s + 1)) → TrInv n s res' (row tr' (index + s + 1)) →
      lens (translateInner n res index s tr) = lens (translateInner n res' index s tr')
  | 0, _, tr, tr', htr, _, _ => htr
  | s + 1, hs, tr, tr', htr, hv, hv' => by
    simp only [translateInner]
    have hW' : res'.length = 2 * W := by rw [← lens_length hres, hW]
    have hrow := fun i => lens_row hres i
    have hrow' := fun i => lens_row hres i
    -- if some earlier row is too short then only one value is copied
    have hc : ∀ (res : List (List R)) (r : List R), TrInv n (s + 1) res r → ∀ i ≤ s, (row res (2 * i + 1)).length < n →
        (⌊r.getD (n - 1) 0⌋ + 1).toNat = 1 := by
      intro res r hv i hi hlt
      rw [hv i (by omega) hlt, Int.floor_zero]
      rfl
    have hnew : ∀ (res tr : List (List R)) (u : ℕ), ArgInv n W u res → TrInv n (s + 1) res (row tr (index + (s + 1) + 1)) →
        TrInv n s res (row (tr.set (index + (s + 1))
          ((row res (2 * s + 1)).take (⌊(row tr (index + (s + 1) + 1)).getD (n - 1) 0⌋ + 1).toNat ++
            List.replicate (n - (⌊(row tr (index + (s + 1) + 1)).getD (n - 1) 0⌋ + 1).toNat)
              ((row res (2 * s + 1)).getD ((⌊(row tr (index + (s + 1) + 1)).getD (n - 1) 0⌋ + 1).toNat - 1) 0))) (index + s + 1)) := by
      intro res tr u hA hv i hi hlt
      rw [hc res _ hv i (by omega) hlt, row_set]
      have hz := hA.head s
      split
      · simp only [Nat.sub_self, hz]
        rcases hsrc : row res (2 * s + 1) with _ | ⟨a, q⟩
        · rw [hsrc] at hz
          simp only [List.take_nil, List.nil_append]
          exact zeros_getD (n - 1) (n - 1)
        · rw [hsrc] at hz
          simp at hz
          subst hz
          simp only [List.take_succ_cons, List.take_zero, List.cons_append, List.nil_append]
          have : (0 : R) :: List.replicate (n - 1) 0 = zeros (n - 1 + 1) := by simp [zeros, List.replicate_succ]
          rw [this, zeros_getD]
      · rename_i hno
        rw [row_ge _ _ (by omega)]
        rfl
    refine translateInner_lens n hres W hW h h' index s (by omega) _ _ ?_ (hnew res tr t h hv) (hnew res' tr' t' h' hv')
    refine lens_set htr _ ?_
    have hsm := h.small s
    have hl := hrow (2 * s + 1)
    simp only [List.length_append, List.length_take, List.length_replicate]
    rcases Nat.lt_or_ge (row res (2 * s + 1)).length n with hlt | hge
    · rw [hc res _ hv s le_rfl hlt, hc res' _ hv' s le_rfl (by omega), hl]
    · omega

theorem translateLoop_lens (n : ℕ) {res res' : List (List R)} (hres : lens res = lens res') (W : ℕ) (hW : res.length = 2 * W)
    {t t' : ℕ} (h : ArgInv n W t res) (h' : ArgInv n W t' res') : ∀ (k : ℕ), k ≤ W → ∀ tr tr' : List (List R),
      lens tr = lens tr' → lens (translateLoop n res k tr) = lens (translateLoop n res' k tr')
  | 0, _, _, _, htr => htr
  | k + 1, hk, tr, tr', htr => by
    simp only [translateLoop]
    refine translateLoop_lens n hres W hW h h' k (by omega) _ _ ?_
    have hW' : res'.length = 2 * W := by rw [← lens_length hres, hW]
    have hstart : ∀ (res tr : List (List R)) (u : ℕ), res.length = 2 * W → ArgInv n W u res →
        TrInv n k res (row ((tr.set (triIndex k) (row res (2 * k))).set (triIndex k + k + 1) (row res (2 * k + 1))) (triIndex k + k + 1)) := by
      intro res tr u hW hA i hi hlt
      rw [row_set]
      split
      · exact hA.later i k hi (by omega) hlt
      · rename_i hno
        rw [row_ge _ _ (by omega)]; rfl
    refine translateInner_lens n hres W hW h h' _ k (by omega) _ _ ?_ (hstart res tr t hW h) (hstart res' tr' t' hW' h')
    exact lens_set (lens_set htr _ (lens_row hres _)) _ (lens_row hres _)

theorem arcticArgmax_lens {Z Z' : List (List R)} (hZ : lens Z = lens Z') (word : List (List ℤ)) (alpha : List R)
    {l l' : List R} (hl : l.length = l'.length) : lens (arcticArgmax Z word alpha l) = lens (arcticArgmax Z' word alpha l') := by
  unfold arcticArgmax
  obtain ⟨a1, t, a2⟩ := argmaxLoop_inv Z word alpha l
  obtain ⟨b1, t', b2⟩ := argmaxLoop_inv Z' word alpha l'
  rw [lens_ncols hZ] at a2 ⊢
  exact translateLoop_lens _ (argmaxLoop_lens hZ word alpha hl) word.length a1 a2 b2 _ le_rfl _ _ rfl

theorem fastSingle_lens (expf : R → R) (k : SemiringKind) {Z Z' : List (List R)} (hZ : lens Z = lens Z') (word : List (List ℤ))
    (alpha : List R) {l l' : List R} (hl : l.length = l'.length) (ext : ℕ) (total : Bool) :
    lens (fastSingle expf k Z word alpha l ext total) = lens (fastSingle expf k Z' word alpha l' ext total) := by
  cases k <;> cases total <;> simp only [fastSingle]
  · exact realsSingle_lens expf hZ word alpha hl ext
  · exact totalReals_lens expf hZ word alpha hl ext
  · exact arcticSingle_lens hZ word alpha hl ext
  · exact totalArctic_lens hZ word alpha hl ext
  · exact arcticArgmax_lens hZ word alpha hl
  · exact arcticArgmax_lens hZ word alpha hl
  · exact bayesianSingle_lens expf hZ word alpha hl ext
  · exact totalBayesian_lens expf hZ word alpha hl ext

/-! ### `CosWISS` -/

theorem mulTrig_lens {x x' s c : List R} (a b : ℕ) (h : x.length = x'.length) :
    (mulTrig s c a b x).length = (mulTrig s c a b x').length := by
  have it : ∀ (y : List R) (m : ℕ) (x x' : List R), x.length = x'.length →
      ((fun v => vmul v y)^[m] x).length = ((fun v => vmul v y)^[m] x').length := by
    intro y m
    induction m with
    | zero => intro x x' h; exact h
    | succ m ih =>
      intro x x' h
      rw [Function.iterate_succ_apply, Function.iterate_succ_apply]
      exact ih _ _ (by simp [h])
  exact it c b _ _ (it s a _ _ h)

theorem cosRow_lens [NpMath R] {Z Z' : List (List R)} (hZ : lens Z = lens Z') (word : List (List ℤ)) (s c : List R) (wt : List ℕ) :
    (cosRow Z word s c wt).length = (cosRow Z' word s c wt).length := by
  have key := enumFold_rel (fun k el (tmp : List R) =>
      let tmp := if k > 0 then roll1z tmp else tmp
      let tmp := lettersMul Z el tmp
      let tmp := mulTrig s c (wt.getD (2 * k + 1) 0) (wt.getD (2 * k + 2) 0) tmp
      cumsum tmp) (fun k el (tmp : List R) =>
      let tmp := if k > 0 then roll1z tmp else tmp
      let tmp := lettersMul Z' el tmp
      let tmp := mulTrig s c (wt.getD (2 * k + 1) 0) (wt.getD (2 * k + 2) 0) tmp
      cumsum tmp) (fun (x x' : List R) => x.length = x'.length) (by
        intro k a x x' h
        simp only [cumsum_len]
        exact mulTrig_lens _ _ (lettersMul_lens hZ _ (by split <;> simp [h]))) word 0 (ones (ncols Z)) (ones (ncols Z')) (by simp [lens_ncols hZ])
  unfold cosRow
  simp only
  split
  · exact mulTrig_lens _ _ key
  · exact key

theorem leakyRow_lens [NpMath R] {Z Z' : List (List R)} (hZ : lens Z = lens Z') (word : List (List ℤ)) (s c : List R) (dr : List (List ℕ))
    (wt : List ℕ) : (leakyRow Z word s c dr wt).length = (leakyRow Z' word s c dr wt).length := by
  have hz : ∀ (idx : List ℕ) (x : List R), (zeroAt x idx).length = x.length := fun idx x => foldl_length _ (by simp) idx x
  have key := enumFold_rel (fun k el (tmp : List R) =>
      let tmp := if k > 0 then roll1z tmp else tmp
      let tmp := lettersMul Z el tmp
      let tmp := mulTrig s c (wt.getD (2 * k + 1) 0) (wt.getD (2 * k + 2) 0) tmp
      let tmp := zeroAt tmp (dr.getD k [])
      cumsum tmp) (fun k el (tmp : List R) =>
      let tmp := if k > 0 then roll1z tmp else tmp
      let tmp := lettersMul Z' el tmp
      let tmp := mulTrig s c (wt.getD (2 * k + 1) 0) (wt.getD (2 * k + 2) 0) tmp
      let tmp := zeroAt tmp (dr.getD k [])
      cumsum tmp) (fun (x x' : List R) => x.length = x'.length) (by
        intro k a x x' h
        simp only [cumsum_len, hz]
        exact mulTrig_lens _ _ (lettersMul_lens hZ _ (by split <;> simp [h]))) word 0 (ones (ncols Z)) (ones (ncols Z')) (by simp [lens_ncols hZ])
  unfold leakyRow
  simp only
  split
  · exact mulTrig_lens _ _ key
  · exact key

theorem foldl_vadd_length (f g : List ℕ → List R) (h : ∀ wt, (f wt).length = (g wt).length) : ∀ (l : List (List ℕ)) (x x' : List R),
    x.length = x'.length → (l.foldl (fun r wt => vadd r (f wt)) x).length = (l.foldl (fun r wt => vadd r (g wt)) x').length
  | [], _, _, hx => hx
  | a :: l, x, x', hx => by
    rw [List.foldl_cons, List.foldl_cons]
    exact foldl_vadd_length f g h l _ _ (by simp [hx, h])

theorem coswissSingle_lens [NpMath R] (pi : R) {Z Z' : List (List R)} (hZ : lens Z = lens Z') (word : List (List ℤ)) (freq : R)
    (wts : List (List ℕ)) : (coswissSingle pi Z word freq wts).length = (coswissSingle pi Z' word freq wts).length := by
  unfold coswissSingle
  rw [lens_ncols hZ]
  exact foldl_vadd_length _ _ (fun wt => by simp [cosRow_lens hZ]) _ _ _ rfl

theorem leakyCoswissSingle_lens [NpMath R] (pi : R) {Z Z' : List (List R)} (hZ : lens Z = lens Z') (word : List (List ℤ)) (freq : R)
    (wts dr : List (List ℕ)) : (leakyCoswissSingle pi Z word freq wts dr).length = (leakyCoswissSingle pi Z' word freq wts dr).length := by
  unfold leakyCoswissSingle
  rw [lens_ncols hZ]
  exact foldl_vadd_length _ _ (fun wt => by simp [leakyRow_lens hZ]) _ _ _ rfl

theorem cosFfn_lens (A : List (List R)) (b : List R) (C : List (List R)) {Z Z' : List (List R)} (hZ : lens Z = lens Z') :
    lens (cosFfn A b C Z) = lens (cosFfn A b C Z') := by
  unfold cosFfn lens
  rw [lens_ncols hZ]
  simp

end Fruits
