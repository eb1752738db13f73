import Verif.FastMathLemmas
import Verif.Props.Rounded2

/-! # C160: `fastmath` -/

namespace Fruits
set_option linter.unusedSectionVars false
variable {R : Type} [Field R] [LinearOrder R] [IsStrictOrderedRing R] [FloorRing R]

namespace Expr
variable (F : Fp R)

/-! ### the symbolic kernels, evaluated in the order of the source, are the rounded kernels -/

theorem enumFold_hom {α σ τ : Type*} (g : σ → τ) (f : ℕ → α → σ → σ) (f' : ℕ → α → τ → τ) (h : ∀ k x s, g (f k x s) = f' k x (g s)) (k : ℕ)
    (xs : List α) (s : σ) : g (enumFold f k xs s) = enumFold f' k xs (g s) := by
  induction xs generalizing k s with
  | nil => rfl
  | cons x xs ih => rw [enumFold, enumFold, ih, h]

theorem ev_zero : ev F (0 : Expr R) = 0 := rfl

theorem ev_vmul (x : List (Expr R)) (y : List R) : (vmul x y).map (ev F) = F.vmul (x.map (ev F)) y := by
  unfold vmul Fp.vmul
  rw [List.map_zipWith, List.zipWith_map_left]
  rfl

theorem ev_vdiv (x : List (Expr R)) (y : List R) : (vdiv x y).map (ev F) = F.vdiv (x.map (ev F)) y := by
  unfold vdiv Fp.vdiv
  rw [List.map_zipWith, List.zipWith_map_left]
  rfl

theorem ev_vadd (x y : List (Expr R)) : (vadd x y).map (ev F) = F.vadd (x.map (ev F)) (y.map (ev F)) := by
  unfold vadd Fp.vadd
  rw [List.map_zipWith, List.zipWith_map]
  rfl

theorem ev_vsub (x y : List (Expr R)) : (vsub x y).map (ev F) = F.vsub (x.map (ev F)) (y.map (ev F)) := by
  unfold vsub Fp.vsub
  rw [List.map_zipWith, List.zipWith_map]
  congr 1
  funext a b
  simp only [ev, sub_eq_add_neg]

theorem ev_vscale (w : List R) (a : R) : (vscale w a).map (ev F) = F.vscale w a := by
  unfold vscale Fp.vscale
  rw [List.map_map]
  rfl

theorem ev_cumsumFrom (acc : Expr R) (x : List (Expr R)) : (cumsumFrom acc x).map (ev F) = F.cumsumFrom (acc.ev F) (x.map (ev F)) := by
  induction x generalizing acc with
  | nil => rfl
  | cons a x ih => simp only [cumsumFrom, List.map_cons, Fp.cumsumFrom, ih]; rfl

theorem ev_cumsum (x : List (Expr R)) : (cumsum x).map (ev F) = F.cumsum (x.map (ev F)) := ev_cumsumFrom F 0 x

theorem ev_roll (x : List (Expr R)) : (roll1z x).map (ev F) = roll1z (x.map (ev F)) := by
  unfold roll1z roll1
  simp [List.map_set, List.map_drop, List.map_take, ev_zero]

theorem ev_getD (x : List (Expr R)) (i : ℕ) : ev F (x.getD i 0) = (x.map (ev F)).getD i 0 := by
  rw [List.getD_eq_getElem?_getD, List.getD_eq_getElem?_getD, List.getElem?_map]
  cases x[i]? <;> rfl

theorem ev_maxLoop (x : List (Expr R)) : (Fruits.maxLoop x).map (ev F) = Fruits.maxLoop (x.map (ev F)) := by
  unfold Fruits.maxLoop
  rw [List.length_map]
  generalize List.range' 1 (x.length - 1) = is
  induction is generalizing x with
  | nil => rfl
  | cons i is ih =>
    rw [List.foldl_cons, List.foldl_cons, ih, List.map_set]
    congr 2
    change Max.max (ev F _) (ev F _) = _
    rw [ev_getD, ev_getD]

theorem ev_maxRowLoop (r x : List (Expr R)) : (maxRowLoop r x).map (ev F) = maxRowLoop (r.map (ev F)) (x.map (ev F)) := by
  unfold maxRowLoop
  rw [List.length_map, ← ev_getD, ← List.map_set]
  generalize List.range' 1 (x.length - 1) = is
  generalize r.set 0 (x.getD 0 0) = r'
  induction is generalizing r' with
  | nil => rfl
  | cons i is ih =>
    rw [List.foldl_cons, List.foldl_cons, ih, List.map_set]
    congr 2
    change Max.max (ev F _) (ev F _) = _
    rw [ev_getD, ev_getD]

theorem iterate_hom {σ τ : Type*} (g : σ → τ) (f : σ → σ) (f' : τ → τ) (h : ∀ s, g (f s) = f' (g s)) (m : ℕ) (s : σ) :
    g (f^[m] s) = f'^[m] (g s) := by
  induction m generalizing s with
  | zero => rfl
  | succ m ih => rw [Function.iterate_succ_apply, Function.iterate_succ_apply, ih, h]

theorem ev_lettersMul (Z : List (List R)) (el : List ℤ) (x : List (Expr R)) :
    (lettersMul Z el x).map (ev F) = F.lettersMul Z el (x.map (ev F)) := by
  unfold lettersMul Fp.lettersMul
  refine enumFold_hom (List.map (ev F)) _ _ (fun d e s => ?_) 0 el x
  unfold letterMul Fp.letterMul
  by_cases h1 : e > 0
  · rw [if_pos h1, if_pos h1]
    exact iterate_hom (List.map (ev F)) _ _ (fun s => ev_vmul F s _) _ _
  · by_cases h2 : e < 0
    · rw [if_neg h1, if_neg h1, if_pos h2, if_pos h2]
      exact iterate_hom (List.map (ev F)) _ _ (fun s => ev_vdiv F s _) _ _
    · rw [if_neg h1, if_neg h1, if_neg h2, if_neg h2]

theorem ev_lettersAdd (Z : List (List R)) (el : List ℤ) (x : List (Expr R)) :
    (lettersAdd Z el x).map (ev F) = F.lettersAdd Z el (x.map (ev F)) := by
  unfold lettersAdd Fp.lettersAdd
  refine enumFold_hom (List.map (ev F)) _ _ (fun d e s => ?_) 0 el x
  rw [ev_vadd, List.map_map]
  rfl

theorem ev_zeros (n : ℕ) : (zeros n : List (Expr R)).map (ev F) = Fruits.zeros n := by
  simp [zeros, Fruits.zeros, ev]

theorem ev_ones (n : ℕ) : (ones n : List (Expr R)).map (ev F) = Fruits.ones n := by
  simp [ones, Fruits.ones, ev]

theorem getD_map_nil (rows : List (List (Expr R))) (i : ℕ) : (rows.getD i []).map (ev F) = (rows.map (List.map (ev F))).getD i [] := by
  rw [List.getD_eq_getElem?_getD, List.getD_eq_getElem?_getD, List.getElem?_map]
  cases rows[i]? <;> rfl

/-- **C160**: the symbolic kernels describe the source text: evaluated in its order, with every operation rounded, they are the kernels of C153. -/
theorem C160_source (expf : R → R) (k : RKind) (Z : List (List R)) (word : List (List ℤ)) (alpha lookup : List R) (ext : ℕ) (total : Bool) :
    (Expr.fastSingle (F.mexp expf) k Z word alpha lookup ext total).map (List.map (ev F)) = F.fastSingle expf k Z word alpha lookup ext total := by
  have hE : ∀ (w : List R) (a : R), expW (F.mexp expf) w a = F.expW expf w a := fun _ _ => rfl
  have hN : ∀ (w : List R) (a : R), expNegW (F.mexp expf) w a = F.expNegW expf w a := fun _ _ => rfl
  have key : ∀ (f : ℕ → List ℤ → List (Expr R) × List (List (Expr R)) → List (Expr R) × List (List (Expr R)))
      (f' : ℕ → List ℤ → List R × List (List R) → List R × List (List R)) (s : List (Expr R) × List (List (Expr R))) (s' : List R × List (List R)),
      (s.1.map (ev F), s.2.map (List.map (ev F))) = s' →
      (∀ k el s, ((f k el s).1.map (ev F), (f k el s).2.map (List.map (ev F))) = f' k el (s.1.map (ev F), s.2.map (List.map (ev F)))) →
      (enumFold f 0 word s).2.map (List.map (ev F)) = (enumFold f' 0 word s').2 := by
    intro f f' s s' hs h
    rw [← hs, ← enumFold_hom (fun s : List (Expr R) × List (List (Expr R)) => (s.1.map (ev F), s.2.map (List.map (ev F)))) f f' h]
  cases k <;> cases total <;> simp only [Expr.fastSingle, Fp.fastSingle]
  · refine key _ _ _ _ (by simp [ev_zeros, ev_ones]) fun k el s => ?_
    simp only [apply_ite (List.map (ev F)), apply_ite (List.map (List.map (ev F))), List.map_set, ev_cumsum, ev_vmul, ev_lettersMul, ev_roll, hE, hN]
  · refine key _ _ _ _ (by simp [ev_zeros, ev_ones]) fun k el s => ?_
    simp only [apply_ite (List.map (ev F)), apply_ite (List.map (List.map (ev F))), List.map_set, ev_cumsum, ev_vmul, ev_lettersMul, ev_roll, hE, hN]
  · refine key _ _ _ _ (by simp [ev_zeros]) fun k el s => ?_
    simp only [apply_ite (List.map (ev F)), apply_ite (List.map (List.map (ev F))), List.map_set, ev_vadd, ev_vsub, ev_vscale, ev_lettersAdd,
      ev_maxLoop, ev_maxRowLoop, getD_map_nil]
  · refine key _ _ _ _ (by simp [ev_zeros]) fun k el s => ?_
    simp only [apply_ite (List.map (ev F)), apply_ite (List.map (List.map (ev F))), List.map_set, ev_vadd, ev_vsub, ev_vscale, ev_lettersAdd,
      ev_maxLoop, ev_maxRowLoop, getD_map_nil]
  · refine key _ _ _ _ (by simp [ev_ones]) fun k el s => ?_
    simp only [apply_ite (List.map (ev F)), apply_ite (List.map (List.map (ev F))), List.map_set, ev_vmul, ev_lettersMul, hE, hN,
      ev_maxLoop, ev_maxRowLoop, getD_map_nil]
  · refine key _ _ _ _ (by simp [ev_zeros, ev_ones]) fun k el s => ?_
    simp only [apply_ite (List.map (ev F)), apply_ite (List.map (List.map (ev F))), List.map_set, ev_vmul, ev_lettersMul, hE, hN,
      ev_maxLoop, ev_maxRowLoop, getD_map_nil]


/-! ### from expressions to numbers -/

theorem forall₂_getD {α β : Type*} {P : α → β → Prop} {l : List α} {l' : List β} (h : List.Forall₂ P l l') {i : ℕ} (hi : i < l.length) (d : α) (d' : β) :
    P (l.getD i d) (l'.getD i d') := by
  induction h generalizing i with
  | nil => simp at hi
  | cons hx _ ih =>
    cases i with
    | zero => exact hx
    | succ i => exact ih (by simpa using hi)

theorem forall₂_map_self {α β : Type*} {P : α → β → Prop} (f : α → β) (l : List α) (h : ∀ x ∈ l, P x (f x)) : List.Forall₂ P l (l.map f) := by
  induction l with
  | nil => exact .nil
  | cons x l ih => exact .cons (h x (by simp)) (ih fun y hy => h y (by simp [hy]))

variable {F}

theorem SymV.fast {n k s : ℕ} {a A : ℕ → R} {tmp : List (Expr R)} (h : SymV n k s a A tmp) {out : List R} (ho : List.Forall₂ (Fast F) tmp out) :
    NearV F n k a A out := by
  obtain ⟨x, rfl, hx⟩ := h
  have hl : out.length = n := by rw [← ho.length_eq, tab_length]
  refine ⟨fun t => out.getD t 0, by rw [← hl]; exact tab_of_list _ _, fun t ht => ?_⟩
  have := forall₂_getD ho (i := t) (by simpa using ht) (const 0) 0
  rw [tab_getD _ _ _ _ ht] at this
  obtain ⟨e1, e2, e3, -⟩ := hx t ht
  exact (this.near.of_eq e1 e2).mono e3

theorem fast_row {expf : R → R} {kd : RKind} {Z : List (List R)} {word : List (List ℤ)} {alpha lookup : List R} {ext : ℕ} {total : Bool}
    {out : List (List R)} (h : F.FastSingle expf kd Z word alpha lookup ext total out) {r : ℕ}
    (hr : r < (Expr.fastSingle (F.mexp expf) kd Z word alpha lookup ext total).length) {n k s : ℕ} {a A : ℕ → R}
    (hs : SymV n k s a A ((Expr.fastSingle (F.mexp expf) kd Z word alpha lookup ext total).getD r [])) : NearV F n k a A (out.getD r []) :=
  hs.fast (forall₂_getD h hr [] [])

/-- **C160**: what the rounded model of C153 computes is one of the results the compiled program may return. -/
theorem C160_source_iss (F : Fp R) (expf : R → R) (k : RKind) (words : List (SWord R)) (wt : Option (Weighting R)) (X : Data R) :
    F.FastISS expf k words wt X (F.issSingle expf k words wt X) := by
  refine forall₂_map_self _ words fun w _ => ⟨_, ⟨by simp [Fp.iteratedSums], fun j hj => ?_⟩, rfl⟩
  have : (F.iteratedSums expf k X w 1 wt).getD j [] = F.fastSingle expf k (X.getD j []) w.els
      (match wt with | some _ => w.getAlpha | none => Fruits.zeros w.els.length)
      ((match wt with | some wt => wt.lookup X | none => X.map (fun Z => Fruits.zeros (ncols Z))).getD j []) 1
      (match wt with | some wt => wt.total | none => true) := by
    simp only [Fp.iteratedSums, List.getD_eq_getElem?_getD, List.getElem?_mapIdx, List.getElem?_eq_getElem hj, Option.map_some, Option.getD_some]
    cases wt <;> rfl
  rw [this, ← C160_source]
  refine forall₂_map_self _ _ fun row _ => forall₂_map_self _ _ fun e _ => ev_fast e

/-- Entry `(i, j, t)` of a result without weighting. -/
theorem fastISS_entry {expf : R → R} {k : RKind} {X : Data R} {D n : ℕ} {words : List (SWord R)} {out : Data R}
    (h : F.FastISS expf k words none X out) (hadm : Admissible X D n words) {i j : ℕ} (hi : i < words.length) (hj : j < X.length) :
    ∃ o, F.FastSingle expf k X[j] words[i].els (Fruits.zeros words[i].els.length) (Fruits.zeros n) 1 true o ∧
      ∀ t, at3 out i j t = at2 o 0 t := by
  have hZ := hadm.data _ (List.getElem_mem hj)
  have hne : X[j] ≠ [] := by
    intro h; have := hZ.1; rw [h] at this; simp at this; have := hadm.dims; omega
  obtain ⟨B, ⟨hB, hF⟩, e⟩ := forall₂_getD h hi words[i] []
  have hw : words.getD i words[i] = words[i] := by simp [List.getD_eq_getElem?_getD, hi]
  rw [hw] at hF
  have := hF j hj
  simp only [List.getD_eq_getElem?_getD, List.getElem?_map, List.getElem?_eq_getElem hj, Option.map_some, Option.getD_some] at this
  rw [ncols_eq hZ.2 hne] at this
  refine ⟨_, this, fun t => ?_⟩
  have hj' : j < B.length := by omega
  rw [at3, e, at2, List.getD_eq_getElem?_getD (l := B.map _), List.getElem?_map, List.getElem?_eq_getElem hj']
  rfl

/-! ### C160 -/

theorem prod_getDx {p : ℕ} {α : Type} (els : List α) (d : α) (hp : els.length = p)
    (f : α → ℕ → R) (i : Fin p → ℕ) :
    ∏ j : Fin p, f (els.getD j d) (i j) = ∏ j : Fin p, f (els[(j : ℕ)]'(by omega)) (i j) := by
  apply Finset.prod_congr rfl
  intro j _
  have : (j : ℕ) < els.length := by omega
  simp [List.getD_eq_getElem?_getD, this]

theorem sum_getDx {p : ℕ} {α : Type} (els : List α) (d : α) (hp : els.length = p)
    (f : α → ℕ → R) (i : Fin p → ℕ) :
    ∑ j : Fin p, f (els.getD j d) (i j) = ∑ j : Fin p, f (els[(j : ℕ)]'(by omega)) (i j) := by
  apply Finset.sum_congr rfl
  intro j _
  have : (j : ℕ) < els.length := by omega
  simp [List.getD_eq_getElem?_getD, this]

/-- **C160** (kernels of `Reals`, any weighting): row `r` belongs to the prefix of `q = p - ext + r + 1` extended letters;
every entry a compiled program may return differs from the entry computed without rounding (with the machine's exponential function) by at most
`(1 + u)^N - 1` times the entry for the absolute values of the data. `N` counts the factors of the letters of the
prefix (twice for negative exponents) and `n + 2` operations per letter. -/
theorem C160_reals_weighted (F : Fp R) {expf : R → R} (hexp : ∀ x, 0 ≤ expf x) {Z : List (List R)} {n : ℕ}
    (hZ : Rect Z n) (hne : Z ≠ []) {word : List (List ℤ)} (hfit : ∀ el ∈ word, Fits Z el) (alpha : List R)
    {lookup : List R} (hw : lookup.length = n) {ext : ℕ} (he : ext ≤ word.length) (total : Bool) {out : List (List R)}
    (hout : F.FastSingle expf .reals Z word alpha lookup ext total out)
    {r t : ℕ} (hr : r < ext) (ht : t < n) :
    |at2 out r t
        - at2 (Fruits.fastSingle (F.mexp expf) .reals Z word alpha lookup ext total) r t|
      ≤ ((1 + F.u) ^ ((word.take (word.length - ext + r + 1)).map fun el => (el.map fun e => e.toNat + 2 * (-e).toNat).sum + n + 2).sum - 1)
        * at2 (Fruits.fastSingle (F.mexp expf) .reals (absSeries Z) word alpha lookup ext total) r t := by
  cases total with
  | true =>
    simp only [Fruits.fastSingle]
    rw [Fruits.totalReals_eq _ hZ hne hfit alpha hw he,
      Fruits.totalReals_eq _ (rect_abs hZ) (abs_ne hne) (fits_abs hfit) alpha hw he, at2_tab_tab _ hr ht, at2_tab_tab _ hr ht]
    have := (fast_row hout (by simp only [Expr.fastSingle]; rw [(totalReals_sym (F.mexp expf) hZ hne hfit alpha hw he).1]; exact hr)
      ((totalReals_sym (F.mexp expf) hZ hne hfit alpha hw he).2 r hr)).entry ht
    rw [aW_abs F hexp, abs_of_nonneg (mexp_nonneg F hexp _)] at this
    exact this
  | false =>
    simp only [Fruits.fastSingle]
    rw [Fruits.realsSingle_eq _ hZ hne hfit alpha hw he,
      Fruits.realsSingle_eq _ (rect_abs hZ) (abs_ne hne) (fits_abs hfit) alpha hw he, at2_tab_tab _ hr ht, at2_tab_tab _ hr ht]
    have := (fast_row hout (by simp only [Expr.fastSingle]; rw [(realsSingle_sym (F.mexp expf) hZ hne hfit alpha hw he).1]; exact hr)
      ((realsSingle_sym (F.mexp expf) hZ hne hfit alpha hw he).2 r hr)).entry ht
    rw [aW_abs F hexp] at this
    simp only [abs_mul, apply_ite abs, abs_one, abs_of_nonneg (mexp_nonneg F hexp _), ← monos_abs] at this
    exact this

/-- **C160** (kernels of `Bayesian`, any weighting): as `C160_reals_weighted`, with `2` operations per letter besides
the factors. -/
theorem C160_bayesian_weighted (F : Fp R) {expf : R → R} (hexp : ∀ x, 0 ≤ expf x) {Z : List (List R)} {n : ℕ}
    (hZ : Rect Z n) (hne : Z ≠ []) {word : List (List ℤ)} (hfit : ∀ el ∈ word, Fits Z el) (alpha : List R)
    {lookup : List R} (hw : lookup.length = n) {ext : ℕ} (he : ext ≤ word.length) (total : Bool) {out : List (List R)}
    (hout : F.FastSingle expf .bayesian Z word alpha lookup ext total out)
    {r t : ℕ} (hr : r < ext) (ht : t < n) :
    |at2 out r t
        - at2 (Fruits.fastSingle (F.mexp expf) .bayesian Z word alpha lookup ext total) r t|
      ≤ ((1 + F.u) ^ ((word.take (word.length - ext + r + 1)).map fun el => (el.map fun e => e.toNat + 2 * (-e).toNat).sum + 2).sum - 1)
        * at2 (Fruits.fastSingle (F.mexp expf) .bayesian (absSeries Z) word alpha lookup ext total) r t := by
  cases total with
  | true =>
    simp only [Fruits.fastSingle]
    rw [Fruits.totalBayesian_eq _ hZ hne hfit alpha hw he,
      Fruits.totalBayesian_eq _ (rect_abs hZ) (abs_ne hne) (fits_abs hfit) alpha hw he, at2_tab_tab _ hr ht,
      at2_tab_tab _ hr ht]
    have := (fast_row hout (by simp only [Expr.fastSingle]; rw [(totalBayesian_sym (F.mexp expf) hZ hne hfit alpha hw he).1]; exact hr)
      ((totalBayesian_sym (F.mexp expf) hZ hne hfit alpha hw he).2 r hr)).entry ht
    rw [aW_abs F hexp, abs_of_nonneg (mexp_nonneg F hexp _)] at this
    exact this
  | false =>
    simp only [Fruits.fastSingle]
    rw [Fruits.bayesianSingle_eq _ hZ hne hfit alpha hw he,
      Fruits.bayesianSingle_eq _ (rect_abs hZ) (abs_ne hne) (fits_abs hfit) alpha hw he]
    have := (fast_row hout (by simp only [Expr.fastSingle]; rw [(bayesianSingle_sym (F.mexp expf) hZ hne hfit alpha hw he).1]; exact hr)
      ((bayesianSingle_sym (F.mexp expf) hZ hne hfit alpha hw he).2 r hr)).entry ht
    rw [aW_abs F hexp] at this
    simp only [abs_mul, apply_ite abs, abs_one, abs_of_nonneg (mexp_nonneg F hexp _), ← monos_abs] at this
    rw [at2_tab_tab (fun r => runMax _) hr ht, at2_tab_tab (fun r => runMax _) hr ht]
    exact this

/-- **C160** (kernels of `Arctic`, any weighting): every entry a compiled program may return differs from the exact entry by at most
`(1 + u)^N - 1` times the largest sum of the absolute values of all numbers that are added up along an index tuple. -/
theorem C160_arctic_weighted (F : Fp R) (expf : R → R) {Z : List (List R)} {n : ℕ}
    (hZ : Rect Z n) (hne : Z ≠ []) {word : List (List ℤ)} (hfit : ∀ el ∈ word, Fits Z el) (alpha : List R)
    {lookup : List R} (hw : lookup.length = n) {ext : ℕ} (he : ext ≤ word.length) (total : Bool) {out : List (List R)}
    (hout : F.FastSingle expf .arctic Z word alpha lookup ext total out)
    {r t : ℕ} (hr : r < ext) (ht : t < n) {A : R}
    (hA : IsGreatest {v | ∃ i : Fin (word.length - ext + r + 1) → ℕ, Monotone i ∧ (∀ k, i k ≤ t) ∧
      v = ∑ k : Fin (word.length - ext + r + 1),
        ((∑ d ∈ Finset.range (word.getD k []).length, |((word.getD k []).getD d 0 : R) * entry Z d (i k)|)
          + (if (k : ℕ) = 0 then 0 else |lookup.getD (i k) 0 * alpha.getD (k - 1) 0|)
          + |lookup.getD (i k) 0 * alpha.getD k 0|)} A) :
    |at2 out r t
        - at2 (Fruits.fastSingle expf .arctic Z word alpha lookup ext total) r t|
      ≤ ((1 + F.u) ^ (1 + ((word.take (word.length - ext + r + 1)).map fun el => el.length + 2).sum) - 1)
        * (A + |lookup.getD t 0 * alpha.getD (word.length - ext + r) 0|) := by
  have hg := chainMax_isGreatest (· + ·) (0 : R)
    (absP (absLins Z word) (alpha.getD · 0) (lookup.getD · 0)) (word.length - ext + r + 1) n
    (fun _ _ _ _ x y h => by simpa using h) t ht
  have hAe : A = chainMax (· + ·) 0 (absP (absLins Z word) (alpha.getD · 0) (lookup.getD · 0))
      (word.length - ext + r + 1) t := by
    refine hA.unique ?_
    convert hg using 1
    ext v
    constructor
    · rintro ⟨i, h1, h2, rfl⟩
      exact ⟨i, ⟨h1, h2⟩, by rw [chainVal_add, zero_add]; rfl⟩
    · rintro ⟨i, ⟨h1, h2⟩, rfl⟩
      exact ⟨i, h1, h2, by rw [chainVal_add, zero_add]; rfl⟩
  subst hAe
  cases total with
  | true =>
    simp only [Fruits.fastSingle]
    rw [Fruits.totalArctic_eq hZ hne hfit alpha hw he, at2_tab_tab _ hr ht]
    exact (fast_row hout (by simp only [Expr.fastSingle]; rw [(totalArctic_sym hZ hne hfit alpha hw he).1]; exact hr)
      ((totalArctic_sym hZ hne hfit alpha hw he).2 r hr)).entry ht
  | false =>
    simp only [Fruits.fastSingle]
    rw [Fruits.arcticSingle_eq hZ hne hfit alpha hw he, at2_tab_tab (fun r => runMax _) hr ht]
    refine ((fast_row hout (by simp only [Expr.fastSingle]; rw [(arcticSingle_sym hZ hne hfit alpha hw he).1]; exact hr)
      ((arcticSingle_sym hZ hne hfit alpha hw he).2 r hr)).entry ht).trans ?_
    refine mul_le_mul_of_nonneg_left ?_ (F.gam_nonneg _)
    refine le_add_of_le_of_nonneg ?_ (abs_nonneg _)
    rw [chainMax, runMax_le_iff]
    intro s hs
    refine le_trans ?_ (le_runMax _ hs)
    simp only [absP]
    have : 0 ≤ |lookup.getD s 0 * alpha.getD (word.length - ext + r) 0| := abs_nonneg _
    linarith

/-- **C160** (`Reals`, no weighting): every entry a compiled program may return differs from the strict iterated sum by at most
`(1 + u)^N - 1` times the iterated sum of the absolute values, `N` = number of letters with multiplicity (twice for
negative exponents) plus `n + 2` per extended letter. -/
theorem C160_reals (F : Fp R) {expf : R → R} (hexp : expf 0 = 1) {X : Data R} {D n : ℕ} {words : List (SWord R)} {out : Data R}
    (hout : F.FastISS expf .reals words none X out) (hadm : Admissible X D n words) (_hdiv : NoZeroDivision X n words) {i j t : ℕ} (hi : i < words.length)
    (hj : j < X.length) (ht : t < n) :
    |at3 out i j t
        - ∑ s ∈ incTuples words[i].els.length (t + 1),
            ∏ k : Fin words[i].els.length, monomial X[j] words[i].els[k] (s k)|
      ≤ ((1 + F.u) ^ (words[i].els.map fun el => (el.map fun e => e.toNat + 2 * (-e).toNat).sum + n + 2).sum - 1)
        * ∑ s ∈ incTuples words[i].els.length (t + 1),
            ∏ k : Fin words[i].els.length, |monomial X[j] words[i].els[k] (s k)| := by
  obtain ⟨hZ, hne, hfit, hp⟩ := admissible_word hadm hi hj
  obtain ⟨o, ho, heq⟩ := fastISS_entry hout hadm hi hj
  rw [heq t]
  have hs := totalReals_sym (F.mexp expf) hZ hne hfit (Fruits.zeros words[i].els.length) (weights := Fruits.zeros n) (by simp)
    hp
  have h := (fast_row (r := 0) ho (by simp only [Expr.fastSingle]; rw [hs.1]; omega) (hs.2 0 (by omega))).entry ht
  rw [show words[i].els.length - 1 + 0 + 1 = words[i].els.length by omega, List.take_length] at h
  simp only [Fruits.zeros_getD, neg_zero, mul_zero, mexp_zero F hexp, mul_one, abs_one] at h
  have e : aW (F.mexp expf) (monos X[j] words[i].els) (fun _ => 0) (fun _ => 0) = monos X[j] words[i].els := by
    funext a b
    simp [aW, mexp_zero F hexp]
  rw [e] at h
  have e1 : incSum (monos X[j] words[i].els) words[i].els.length (t + 1)
      = ∑ s ∈ incTuples words[i].els.length (t + 1),
          ∏ k : Fin words[i].els.length, monomial X[j] words[i].els[k] (s k) :=
    Finset.sum_congr rfl fun s _ => prod_getDx words[i].els [] rfl (fun el s => monomial X[j] el s) s
  have e2 : incSum (fun a b => |monos X[j] words[i].els a b|) words[i].els.length (t + 1)
      = ∑ s ∈ incTuples words[i].els.length (t + 1),
          ∏ k : Fin words[i].els.length, |monomial X[j] words[i].els[k] (s k)| :=
    Finset.sum_congr rfl fun s _ => prod_getDx words[i].els [] rfl (fun el s => |monomial X[j] el s|) s
  rw [e1, e2] at h
  exact h

/-- **C160** (`Reals`, non-negative data): a relative error. -/
theorem C160_reals_relative (F : Fp R) {expf : R → R} (hexp : expf 0 = 1) {X : Data R} {D n : ℕ}
    {words : List (SWord R)} {out : Data R} (hout : F.FastISS expf .reals words none X out) (hadm : Admissible X D n words) (hdiv : NoZeroDivision X n words) (hX : Nonnegative X)
    {i j t : ℕ} (hi : i < words.length) (hj : j < X.length) (ht : t < n) :
    |at3 out i j t
        - ∑ s ∈ incTuples words[i].els.length (t + 1),
            ∏ k : Fin words[i].els.length, monomial X[j] words[i].els[k] (s k)|
      ≤ ((1 + F.u) ^ (words[i].els.map fun el => (el.map fun e => e.toNat + 2 * (-e).toNat).sum + n + 2).sum - 1)
        * ∑ s ∈ incTuples words[i].els.length (t + 1),
            ∏ k : Fin words[i].els.length, monomial X[j] words[i].els[k] (s k) := by
  have h := C160_reals F hexp hout hadm hdiv hi hj ht
  have hm : ∀ (el : List ℤ) (s : ℕ), |monomial X[j] el s| = monomial X[j] el s := fun el s =>
    abs_of_nonneg (Finset.prod_nonneg fun d _ => zpow_nonneg (hX _ (List.getElem_mem hj) d s) _)
  simp only [hm] at h
  exact h

/-- **C160** (`Arctic`, no weighting): `M` is the exact maximum over all `i_1 ≤ … ≤ i_p ≤ t`, `A` the maximum of the sums
of absolute values. -/
theorem C160_arctic (F : Fp R) (expf : R → R) {X : Data R} {D n : ℕ} {words : List (SWord R)} {out : Data R}
    (hout : F.FastISS expf .arctic words none X out) (hadm : Admissible X D n words) {i j t : ℕ} (hi : i < words.length) (hj : j < X.length) (ht : t < n) {M A : R}
    (hM : IsGreatest {v | ∃ s : Fin words[i].els.length → ℕ, Monotone s ∧ (∀ k, s k ≤ t) ∧
      v = ∑ k : Fin words[i].els.length, linform X[j] words[i].els[k] (s k)} M)
    (hA : IsGreatest {v | ∃ s : Fin words[i].els.length → ℕ, Monotone s ∧ (∀ k, s k ≤ t) ∧
      v = ∑ k : Fin words[i].els.length, ∑ d ∈ Finset.range words[i].els[k].length,
        |(words[i].els[k].getD d 0 : R) * entry X[j] d (s k)|} A) :
    |at3 out i j t - M|
      ≤ ((1 + F.u) ^ (1 + (words[i].els.map fun el => el.length + 2).sum) - 1) * A := by
  obtain ⟨hZ, hne, hfit, hp⟩ := admissible_word hadm hi hj
  obtain ⟨o, ho, heq⟩ := fastISS_entry hout hadm hi hj
  rw [heq t]
  have hs := totalArctic_sym hZ hne hfit (Fruits.zeros words[i].els.length) (weights := Fruits.zeros n) (by simp)
    hp
  have h := (fast_row (r := 0) ho (by simp only [Expr.fastSingle]; rw [hs.1]; omega) (hs.2 0 (by omega))).entry ht
  rw [show words[i].els.length - 1 + 0 + 1 = words[i].els.length by omega, List.take_length] at h
  simp only [Fruits.zeros_getD, mul_zero, sub_zero, abs_zero, add_zero] at h
  have e : aP (lins X[j] words[i].els) (fun _ => (0 : R)) (fun _ => 0) = lins X[j] words[i].els := by
    funext a b; simp [aP]
  have e' : absP (absLins X[j] words[i].els) (fun _ => (0 : R)) (fun _ => 0) = absLins X[j] words[i].els := by
    funext a b; simp [absP]
  rw [e, e'] at h
  have key : ∀ (c : List ℤ → ℕ → R) (V : R), IsGreatest {v | ∃ s : Fin words[i].els.length → ℕ, Monotone s ∧
      (∀ k, s k ≤ t) ∧ v = ∑ k : Fin words[i].els.length, c words[i].els[k] (s k)} V →
      V = chainMax (· + ·) 0 (fun a b => c (words[i].els.getD a []) b) words[i].els.length t := by
    intro c V hV
    refine hV.unique ?_
    convert chainMax_isGreatest (· + ·) (0 : R) (fun a b => c (words[i].els.getD a []) b) words[i].els.length n
      (fun _ _ _ _ x y h => by simpa using h) t ht using 1
    ext v
    constructor
    · rintro ⟨s, h1, h2, rfl⟩
      exact ⟨s, ⟨h1, h2⟩, by rw [chainVal_add, zero_add]; exact (sum_getDx words[i].els [] rfl c s).symm⟩
    · rintro ⟨s, ⟨h1, h2⟩, rfl⟩
      exact ⟨s, h1, h2, by rw [chainVal_add, zero_add]; exact sum_getDx words[i].els [] rfl c s⟩
  rw [key (fun el s => linform X[j] el s) M hM, key (fun el s => absLinform X[j] el s) A hA]
  exact h

/-- **C160** (`Bayesian`, non-negative data, no weighting): a relative error. -/
theorem C160_bayesian (F : Fp R) {expf : R → R} (hexp : expf 0 = 1) {X : Data R} {D n : ℕ} {words : List (SWord R)} {out : Data R}
    (hout : F.FastISS expf .bayesian words none X out) (hadm : Admissible X D n words) (_hdiv : NoZeroDivision X n words) (hX : Nonnegative X) {i j t : ℕ}
    (hi : i < words.length) (hj : j < X.length) (ht : t < n) {M : R}
    (hM : IsGreatest {v | ∃ s : Fin words[i].els.length → ℕ, Monotone s ∧ (∀ k, s k ≤ t) ∧
      v = ∏ k : Fin words[i].els.length, monomial X[j] words[i].els[k] (s k)} M) :
    |at3 out i j t - M|
      ≤ ((1 + F.u) ^ (words[i].els.map fun el => (el.map fun e => e.toNat + 2 * (-e).toNat).sum + 2).sum - 1) * M := by
  obtain ⟨hZ, hne, hfit, hp⟩ := admissible_word hadm hi hj
  obtain ⟨o, ho, heq⟩ := fastISS_entry hout hadm hi hj
  rw [heq t]
  have hs := totalBayesian_sym (F.mexp expf) hZ hne hfit (Fruits.zeros words[i].els.length) (weights := Fruits.zeros n) (by simp)
    hp
  have h := (fast_row (r := 0) ho (by simp only [Expr.fastSingle]; rw [hs.1]; omega) (hs.2 0 (by omega))).entry ht
  rw [show words[i].els.length - 1 + 0 + 1 = words[i].els.length by omega, List.take_length] at h
  simp only [Fruits.zeros_getD, neg_zero, mul_zero, mexp_zero F hexp, mul_one, abs_one] at h
  have e : aW (F.mexp expf) (monos X[j] words[i].els) (fun _ => 0) (fun _ => 0) = monos X[j] words[i].els := by
    funext a b
    simp [aW, mexp_zero F hexp]
  have hm : ∀ (el : List ℤ) (s : ℕ), 0 ≤ monomial X[j] el s := fun el s =>
    Finset.prod_nonneg fun d _ => zpow_nonneg (hX _ (List.getElem_mem hj) d s) _
  have e2 : (fun a b => |monos X[j] words[i].els a b|) = monos X[j] words[i].els := by
    funext a b; exact abs_of_nonneg (hm _ _)
  rw [e, e2] at h
  have hMe : M = chainMax (· * ·) 1 (monos X[j] words[i].els) words[i].els.length t := by
    refine hM.unique ?_
    convert chainMax_isGreatest (· * ·) (1 : R) (monos X[j] words[i].els) words[i].els.length n
      (fun a _ s _ x y h => mul_le_mul_of_nonneg_right h (hm _ _)) t ht using 1
    ext v
    constructor
    · rintro ⟨s, h1, h2, rfl⟩
      exact ⟨s, ⟨h1, h2⟩, by
        rw [chainVal_mul, one_mul]
        exact (prod_getDx words[i].els [] rfl (fun el s => monomial X[j] el s) s).symm⟩
    · rintro ⟨s, ⟨h1, h2⟩, rfl⟩
      exact ⟨s, h1, h2, by
        rw [chainVal_mul, one_mul]; exact prod_getDx words[i].els [] rfl (fun el s => monomial X[j] el s) s⟩
  rw [hMe]
  exact h

end Expr
end Fruits
