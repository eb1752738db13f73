import Verif.Props.Logarithm
import Verif.Props.Warp2
import Verif.Props.Total3

/-! # C162: iterated sums are monotone and stable in the data -/

set_option linter.unusedSectionVars false

namespace Fruits
variable {R : Type} [Field R] [LinearOrder R] [IsStrictOrderedRing R] [FloorRing R]

/-- Two arrays of the same shape whose entries are related pairwise. -/
def Entrywise {R : Type} (Q : R → R → Prop) (A B : Data R) : Prop := List.Forall₂ (List.Forall₂ (List.Forall₂ Q)) A B

/-- The sum of the absolute values of all exponents of a word. -/
def absWeight {R : Type} (w : SWord R) : ℕ := (w.els.map fun el => (el.map Int.natAbs).sum).sum

theorem forall₂_tab' {α β : Type} {Q : α → β → Prop} {n : ℕ} {f : ℕ → α} {g : ℕ → β} (h : ∀ i < n, Q (f i) (g i)) :
    List.Forall₂ Q (tab n f) (tab n g) := by
  rw [List.forall₂_iff_get]
  refine ⟨by simp, fun i h1 h2 => ?_⟩
  simp only [List.get_eq_getElem, tab_getElem]
  exact h i (by simpa using h1)

theorem forall₂_getD' {α β : Type} {P : α → β → Prop} {l : List α} {l' : List β} (h : List.Forall₂ P l l') {i : ℕ} (hi : i < l.length) (d : α) (d' : β) :
    P (l.getD i d) (l'.getD i d') := by
  induction h generalizing i with
  | nil => simp at hi
  | cons hx _ ih =>
    cases i with
    | zero => exact hx
    | succ i => exact ih (by simpa using hi)

theorem forall₂_flatten {α β : Type} {Q : α → β → Prop} {l : List (List α)} {l' : List (List β)} (h : List.Forall₂ (List.Forall₂ Q) l l') :
    List.Forall₂ Q l.flatten l'.flatten := by
  induction h with
  | nil => exact .nil
  | cons hx _ ih => rw [List.flatten_cons, List.flatten_cons]; exact List.rel_append hx ih

/-- If the outputs of the kernels for two datasets are related entry by entry, so are the results of `ISS.transform`. -/
theorem transform_rel (expf : R → R) (c : ISSConf R) (hs : SimpleISS c) {X X' : Data R} {n : ℕ}
    (hlen : X'.length = X.length) (hX : ∀ Z ∈ X, ncols Z = n) (hX' : ∀ Z ∈ X', ncols Z = n) {wt' : Option (Weighting R)}
    (hwt : SameWeights n X X' c.weighting wt') (Q : R → R → Prop)
    (hk : ∀ s, IWord.simple s ∈ c.words → ∀ (j : ℕ) (hj : j < X.length) (hj' : j < X'.length) (alpha g : List R) (total : Bool) (ext : ℕ),
      g.length = n → ext ≤ s.els.length →
      ∃ F F' : ℕ → ℕ → R, fastSingle expf c.semiring X[j] s.els alpha g ext total = tab ext (fun r => tab n (F r)) ∧
        fastSingle expf c.semiring X'[j] s.els alpha g ext total = tab ext (fun r => tab n (F' r)) ∧ ∀ r < ext, ∀ t < n, Q (F r t) (F' r t)) :
    ∃ A A', c.transform expf X = .ok A ∧ ({ c with weighting := wt' } : ISSConf R).transform expf X' = .ok A' ∧ Entrywise Q A A' := by
  have hus : c.Usable := fun h => absurd h hs.semiring
  have hus' : ({ c with weighting := wt' } : ISSConf R).Usable := fun h => absurd h hs.semiring
  refine ⟨_, _, transform_eq expf hus hs.nonempty X, transform_eq expf hus' hs.nonempty X', ?_⟩
  rw [blockRows_flatten, blockRows_flatten]
  refine forall₂_flatten ?_
  rw [List.forall₂_iff_get]
  refine ⟨by simp, fun i h1 h2 => ?_⟩
  have hi : i < c.words.length := by simpa using h1
  simp only [List.get_eq_getElem, List.getElem_mapIdx, Nat.zero_add]
  have hdep := depth_le hs hi
  have hmem := List.getElem_mem hi
  generalize hword : c.words[i] = w at hdep hmem
  obtain ⟨s, rfl⟩ := hs.simple w hmem
  unfold ISSConf.wordRows swapAxes
  have hd : ({ c with weighting := wt' } : ISSConf R).depth i = c.depth i := rfl
  have hr : rowsOf c.semiring (IWord.simple s) (c.depth i) = c.depth i := by
    unfold rowsOf
    split
    · rename_i h _ ; exact absurd h hs.semiring
    · rfl
  rw [hd, hr]
  refine forall₂_tab' fun r hr => ?_
  have key : ∀ (j : ℕ) (hj : j < X.length) (hj' : j < X'.length) (alpha g : List R) (total : Bool), g.length = n →
      List.Forall₂ Q ((fastSingle expf c.semiring X[j] s.els alpha g (c.depth i) total).getD r [])
        ((fastSingle expf c.semiring X'[j] s.els alpha g (c.depth i) total).getD r []) := by
    intro j hj hj' alpha g total hg
    obtain ⟨F, F', h1, h2, h⟩ := hk s hmem j hj hj' alpha g total (c.depth i) hg hdep
    rw [h1, h2, tab_getD _ _ _ _ hr, tab_getD _ _ _ _ hr]
    exact forall₂_tab' fun t ht => h r hr t ht
  generalize c.weighting = wt at hwt ⊢
  rw [List.forall₂_iff_get]
  refine ⟨by simp [iteratedSums, hlen], fun j h3 h4 => ?_⟩
  have hj : j < X.length := by simpa [iteratedSums] using h3
  have hj' : j < X'.length := by omega
  cases hwt with
  | none =>
    simp only [iteratedSums, List.get_eq_getElem, List.getElem_map, List.getElem_mapIdx]
    have e1 : (X'.map fun Z => (zeros (ncols Z) : List R)).getD j [] = zeros n := by
      simp [List.getD_eq_getElem?_getD, hj', hX' _ (List.getElem_mem hj')]
    have e2 : (X.map fun Z => (zeros (ncols Z) : List R)).getD j [] = zeros n := by
      simp [List.getD_eq_getElem?_getD, hj, hX _ (List.getElem_mem hj)]
    rw [e1, e2]
    exact key j hj hj' _ _ _ (by simp)
  | some g g' total look same =>
    simp only [iteratedSums, List.get_eq_getElem, List.getElem_map, List.getElem_mapIdx, total, same]
    have hjl : j < (g.lookup X).length := by rw [look.1]; exact hj
    apply key j hj hj'
    apply look.2
    exact getD_mem_of_lt hjl

/-! ### Arctic -/

theorem runMax_le_add {f g : ℕ → R} {c : R} {t : ℕ} (h : ∀ s ≤ t, f s ≤ g s + c) : runMax f t ≤ runMax g t + c := by
  rw [runMax_le_iff]
  intro s hs
  have := le_runMax g hs
  have := h s hs
  linarith

theorem chainMax_le_add {a b : ℕ → ℕ → R} {c : ℕ → R} {p t : ℕ} (h : ∀ j < p, ∀ s ≤ t, a j s ≤ b j s + c j) :
    chainMax (· + ·) 0 a p t ≤ chainMax (· + ·) 0 b p t + ∑ j ∈ Finset.range p, c j := by
  induction p generalizing t with
  | zero => simp [chainMax]
  | succ p ih =>
    rw [chainMax, chainMax, Finset.sum_range_succ]
    refine runMax_le_add fun s hs => ?_
    have h1 := ih (t := s) fun j hj u hu => h j (by omega) u (by omega)
    have h2 := h p (by omega) s hs
    linarith

/-- If the letters of one series exceed those of another by at most `c_j`, the Arctic rows exceed each other by at most `∑ c_j`. -/
theorem fastSingle_le_add (expf : R → R) {Z Z' : List (List R)} {n : ℕ} (hZ : Rect Z n) (hne : Z ≠ []) (hZ' : Rect Z' n) (hne' : Z' ≠ [])
    {word : List (List ℤ)} (hfit : ∀ el ∈ word, Fits Z el) (hfit' : ∀ el ∈ word, Fits Z' el) (alpha : List R) {g : List R} (hg : g.length = n)
    {ext : ℕ} (hext : ext ≤ word.length) (total : Bool) :
    ∃ F F' : ℕ → ℕ → R, fastSingle expf .arctic Z word alpha g ext total = tab ext (fun r => tab n (F r)) ∧
      fastSingle expf .arctic Z' word alpha g ext total = tab ext (fun r => tab n (F' r)) ∧
      (∀ c : ℕ → R, (∀ j, 0 ≤ c j) → (∀ j < word.length, ∀ t < n, lins Z word j t ≤ lins Z' word j t + c j) →
        ∀ r < ext, ∀ t < n, F r t ≤ F' r t + ∑ j ∈ Finset.range word.length, c j) ∧
      ∀ c : ℕ → R, (∀ j, 0 ≤ c j) → (∀ j < word.length, ∀ t < n, lins Z' word j t ≤ lins Z word j t + c j) →
        ∀ r < ext, ∀ t < n, F' r t ≤ F r t + ∑ j ∈ Finset.range word.length, c j := by
  have hsum : ∀ c : ℕ → R, (∀ j, 0 ≤ c j) → ∀ q ≤ word.length, ∑ j ∈ Finset.range q, c j ≤ ∑ j ∈ Finset.range word.length, c j :=
    fun c hc q hq => Finset.sum_le_sum_of_subset_of_nonneg (Finset.range_mono hq) fun j _ _ => hc j
  have haP : ∀ (a b : ℕ → ℕ → R) (c : ℕ → R), (∀ j < word.length, ∀ t < n, a j t ≤ b j t + c j) → ∀ q ≤ word.length, ∀ t < n,
      chainMax (· + ·) 0 (aP a (alpha.getD · 0) (g.getD · 0)) q t
        ≤ chainMax (· + ·) 0 (aP b (alpha.getD · 0) (g.getD · 0)) q t + ∑ j ∈ Finset.range q, c j := by
    intro a b c h q hq t ht
    refine chainMax_le_add fun j hj s hs => ?_
    have := h j (by omega) s (by omega)
    unfold aP
    linarith
  cases total with
  | true =>
    refine ⟨_, _, totalArctic_eq hZ hne hfit alpha hg hext, totalArctic_eq hZ' hne' hfit' alpha hg hext, ?_, ?_⟩ <;>
    · intro c hc h r hr t ht
      have h1 := haP _ _ c h (word.length - ext + r + 1) (by omega) t ht
      have h2 := hsum c hc (word.length - ext + r + 1) (by omega)
      linarith
  | false =>
    refine ⟨_, _, arcticSingle_eq hZ hne hfit alpha hg hext, arcticSingle_eq hZ' hne' hfit' alpha hg hext, ?_, ?_⟩ <;>
    · intro c hc h r hr t ht
      refine runMax_le_add fun s hs => ?_
      have h1 := haP _ _ c h (word.length - ext + r) (by omega) s (by omega)
      have h2 := hsum c hc (word.length - ext + r + 1) (by omega)
      rw [Finset.sum_range_succ] at h2
      have h3 := h (word.length - ext + r) (by omega) s (by omega)
      linarith

theorem sum_range_map_getD {α M : Type} [AddCommMonoid M] (f : α → M) (l : List α) (d : α) :
    ∑ j ∈ Finset.range l.length, f (l.getD j d) = (l.map f).sum := by
  induction l with
  | nil => simp
  | cons x l ih => rw [List.length_cons, Finset.sum_range_succ', List.map_cons, List.sum_cons, ← ih, add_comm]; rfl

/-- A letter changes by at most the sum of the absolute exponents times the change of the data. -/
theorem linform_le {Z Z' : List (List R)} {el : List ℤ} {t : ℕ} {ε : R} (h : ∀ d < el.length, |entry Z d t - entry Z' d t| ≤ ε) :
    linform Z el t ≤ linform Z' el t + ((el.map Int.natAbs).sum : ℕ) * ε := by
  have e : (((el.map Int.natAbs).sum : ℕ) : R) * ε = ∑ d ∈ Finset.range el.length, ((el.getD d 0).natAbs : R) * ε := by
    rw [← sum_range_map_getD Int.natAbs el 0, Nat.cast_sum, Finset.sum_mul]
  rw [e, linform, linform, ← Finset.sum_add_distrib]
  refine Finset.sum_le_sum fun d hd => ?_
  have h1 := h d (Finset.mem_range.1 hd)
  have h2 : ((el.getD d 0 : ℤ) : R) * (entry Z d t - entry Z' d t) ≤ ((el.getD d 0).natAbs : R) * ε := by
    refine (le_abs_self _).trans ?_
    rw [abs_mul]
    have : |((el.getD d 0 : ℤ) : R)| = ((el.getD d 0).natAbs : R) := by
      rw [← Int.cast_abs, Int.abs_eq_natAbs, Int.cast_natCast]
    rw [this]
    exact mul_le_mul_of_nonneg_left h1 (Nat.cast_nonneg _)
  rw [mul_sub] at h2
  linarith

theorem absWeight_cast (s : SWord R) (ε : R) :
    ∑ j ∈ Finset.range s.els.length, (((s.els.getD j []).map Int.natAbs).sum : ℕ) * ε = (absWeight s : R) * ε := by
  rw [← Finset.sum_mul, ← Nat.cast_sum, sum_range_map_getD (fun el : List ℤ => (el.map Int.natAbs).sum)]
  rfl

/-- The entries of related datasets. -/
theorem Entrywise.entries {Q : R → R → Prop} {X X' : Data R} {m d n : ℕ} (h : Entrywise Q X X') (hX : HasShape X m d n) :
    HasShape X' m d n ∧ ∀ (j : ℕ) (hj : j < X.length) (hj' : j < X'.length), ∀ k < d, ∀ t < n, Q (entry X[j] k t) (entry X'[j] k t) := by
  rw [Entrywise, List.forall₂_iff_get] at h
  refine ⟨⟨by rw [← h.1]; exact hX.1, fun Z' hZ' => ?_⟩, fun j hj hj' k hk t ht => ?_⟩
  · obtain ⟨j, hj', rfl⟩ := List.getElem_of_mem hZ'
    have hj : j < X.length := by rw [h.1]; exact hj'
    have hs := hX.2 _ (List.getElem_mem hj)
    have h2 := h.2 j hj hj'
    refine ⟨by rw [← hs.1]; exact h2.length_eq.symm, fun r hr => ?_⟩
    obtain ⟨k, hk', rfl⟩ := List.getElem_of_mem hr
    rw [List.forall₂_iff_get] at h2
    have hk : k < X[j].length := by have := h2.1; simp only [List.get_eq_getElem] at this; omega
    have h3 := h2.2 k hk hk'
    rw [← hs.2 _ (List.getElem_mem hk)]
    exact h3.length_eq.symm
  · have hs := hX.2 _ (List.getElem_mem hj)
    have hk' : k < X[j].length := by rw [hs.1]; exact hk
    refine forall₂_getD' (forall₂_getD' (h.2 j hj hj') (by exact hk') [] []) ?_ 0 0
    have : (X[j].getD k []) = X[j][k] := by simp [List.getD_eq_getElem?_getD, hk']
    simp only [List.get_eq_getElem]
    rw [this, hs.2 _ (List.getElem_mem hk')]
    exact ht

theorem shape_facts {X : Data R} {m d n : ℕ} (hX : HasShape X m d n) (hd : 0 < d) {Z : List (List R)} (hZ : Z ∈ X) : Z ≠ [] ∧ ncols Z = n := by
  have h : Z ≠ [] := by
    intro h; have := (hX.2 Z hZ).1; rw [h] at this; simp at this; omega
  exact ⟨h, ncols_eq (hX.2 Z hZ).2 h⟩

/-- **C162** (stability, Arctic): if all entries of two datasets differ by at most `ε`, all Arctic iterated sums of words with at most `N` as the
sum of the absolute exponents differ by at most `N·ε` — independently of the length of the series, in both modes, with any weighting. -/
theorem C162_arctic_stable (expf : R → R) (c : ISSConf R) (hs : SimpleISS c) (hc : c.semiring = .arctic) {X X' : Data R} {m d n : ℕ}
    (hX : HasShape X m d n) (hd : 0 < d) (hw : ∀ s, IWord.simple s ∈ c.words → ∀ el ∈ s.els, el.length ≤ d) {ε : R} (hε : 0 ≤ ε)
    (hXX : Entrywise (fun x y => |x - y| ≤ ε) X X') {wt' : Option (Weighting R)} (hwt : SameWeights n X X' c.weighting wt') {N : ℕ}
    (hN : ∀ s, IWord.simple s ∈ c.words → absWeight s ≤ N) :
    ∃ A A', c.transform expf X = .ok A ∧ ({ c with weighting := wt' } : ISSConf R).transform expf X' = .ok A' ∧
      Entrywise (fun x y => |x - y| ≤ N * ε) A A' := by
  obtain ⟨hX', he⟩ := hXX.entries hX
  refine transform_rel expf c hs hXX.length_eq.symm (fun Z hZ => (shape_facts hX hd hZ).2) (fun Z hZ => (shape_facts hX' hd hZ).2) hwt _ ?_
  intro s hsm j hj hj' alpha g total ext hg hext
  have hZ := List.getElem_mem hj
  have hZ' := List.getElem_mem hj'
  have hfit : ∀ el ∈ s.els, Fits X[j] el := fun el hel => by unfold Fits; rw [(hX.2 _ hZ).1]; exact hw s hsm el hel
  have hfit' : ∀ el ∈ s.els, Fits X'[j] el := fun el hel => by unfold Fits; rw [(hX'.2 _ hZ').1]; exact hw s hsm el hel
  obtain ⟨F, F', h1, h2, h3, h4⟩ := fastSingle_le_add expf (hX.2 _ hZ).2 (shape_facts hX hd hZ).1 (hX'.2 _ hZ').2 (shape_facts hX' hd hZ').1
    hfit hfit' alpha hg hext total
  rw [hc]
  refine ⟨F, F', h1, h2, fun r hr t ht => ?_⟩
  have hc0 : ∀ j, (0 : R) ≤ (((s.els.getD j []).map Int.natAbs).sum : ℕ) * ε := fun j => mul_nonneg (Nat.cast_nonneg _) hε
  have hlen : ∀ k < s.els.length, (s.els.getD k []).length ≤ d := fun k hk => hw s hsm _ (getD_mem_of_lt hk)
  have a1 := h3 _ hc0 (fun k hk t ht => linform_le fun d' hd' => he j hj hj' d' (lt_of_lt_of_le hd' (hlen k hk)) t ht) r hr t ht
  have a2 := h4 _ hc0 (fun k hk t ht => linform_le fun d' hd' => by
    rw [abs_sub_comm]; exact he j hj hj' d' (lt_of_lt_of_le hd' (hlen k hk)) t ht) r hr t ht
  rw [absWeight_cast] at a1 a2
  have hle : (absWeight s : R) * ε ≤ N * ε := mul_le_mul_of_nonneg_right (Nat.cast_le.2 (hN s hsm)) hε
  rw [abs_le]
  constructor <;> linarith

/-- **C162** (monotonicity, Arctic): with non-negative exponents, larger data give larger Arctic iterated sums. -/
theorem C162_arctic_monotone (expf : R → R) (c : ISSConf R) (hs : SimpleISS c) (hc : c.semiring = .arctic) {X X' : Data R} {m d n : ℕ}
    (hX : HasShape X m d n) (hd : 0 < d) (hw : ∀ s, IWord.simple s ∈ c.words → ∀ el ∈ s.els, el.length ≤ d ∧ ∀ e ∈ el, 0 ≤ e)
    (hXX : Entrywise (fun x y => x ≤ y) X X') {wt' : Option (Weighting R)} (hwt : SameWeights n X X' c.weighting wt') :
    ∃ A A', c.transform expf X = .ok A ∧ ({ c with weighting := wt' } : ISSConf R).transform expf X' = .ok A' ∧
      Entrywise (fun x y => x ≤ y) A A' := by
  obtain ⟨hX', he⟩ := hXX.entries hX
  refine transform_rel expf c hs hXX.length_eq.symm (fun Z hZ => (shape_facts hX hd hZ).2) (fun Z hZ => (shape_facts hX' hd hZ).2) hwt _ ?_
  intro s hsm j hj hj' alpha g total ext hg hext
  have hZ := List.getElem_mem hj
  have hZ' := List.getElem_mem hj'
  have hfit : ∀ el ∈ s.els, Fits X[j] el := fun el hel => by unfold Fits; rw [(hX.2 _ hZ).1]; exact (hw s hsm el hel).1
  have hfit' : ∀ el ∈ s.els, Fits X'[j] el := fun el hel => by unfold Fits; rw [(hX'.2 _ hZ').1]; exact (hw s hsm el hel).1
  obtain ⟨F, F', h1, h2, h3, -⟩ := fastSingle_le_add expf (hX.2 _ hZ).2 (shape_facts hX hd hZ).1 (hX'.2 _ hZ').2 (shape_facts hX' hd hZ').1
    hfit hfit' alpha hg hext total
  rw [hc]
  refine ⟨F, F', h1, h2, fun r hr t ht => ?_⟩
  have a1 := h3 (fun _ => 0) (fun _ => le_refl _) (fun k hk t ht => by
    rw [add_zero, lins, lins, linform, linform]
    refine Finset.sum_le_sum fun d' hd' => ?_
    have hel := hw s hsm _ (getD_mem_of_lt (d := []) hk)
    have hd' := Finset.mem_range.1 hd'
    refine mul_le_mul_of_nonneg_left (he j hj hj' d' (lt_of_lt_of_le hd' hel.1) t ht) ?_
    exact_mod_cast hel.2 _ (getD_mem_of_lt hd')) r hr t ht
  simpa using a1

/-! ### Bayesian and Reals: monotonicity -/

theorem runMax_mono_fun {f g : ℕ → R} {t : ℕ} (h : ∀ s ≤ t, f s ≤ g s) : runMax f t ≤ runMax g t := by
  rw [runMax_le_iff]
  exact fun s hs => (h s hs).trans (le_runMax g hs)

theorem chainMax_mul_mono {a b : ℕ → ℕ → R} {p t : ℕ} (h : ∀ j < p, ∀ s ≤ t, 0 ≤ a j s ∧ a j s ≤ b j s) :
    0 ≤ chainMax (· * ·) 1 a p t ∧ chainMax (· * ·) 1 a p t ≤ chainMax (· * ·) 1 b p t := by
  induction p generalizing t with
  | zero => simp [chainMax]
  | succ p ih =>
    rw [chainMax, chainMax]
    have h1 : ∀ s ≤ t, 0 ≤ chainMax (· * ·) 1 a p s ∧ chainMax (· * ·) 1 a p s ≤ chainMax (· * ·) 1 b p s :=
      fun s hs => ih fun j hj u hu => h j (by omega) u (by omega)
    refine ⟨?_, runMax_mono_fun fun s hs => ?_⟩
    · refine le_trans ?_ (le_runMax _ (Nat.zero_le t))
      exact mul_nonneg (h1 0 (Nat.zero_le _)).1 (h p (by omega) 0 (Nat.zero_le _)).1
    · exact mul_le_mul (h1 s hs).2 (h p (by omega) s hs).2 (h p (by omega) s hs).1 ((h1 s hs).1.trans (h1 s hs).2)

theorem incSum_mono {a b : ℕ → ℕ → R} {p t : ℕ} (h : ∀ j < p, ∀ s < t, 0 ≤ a j s ∧ a j s ≤ b j s) :
    0 ≤ incSum a p t ∧ incSum a p t ≤ incSum b p t := by
  unfold incSum
  constructor
  · refine Finset.sum_nonneg fun i hi => Finset.prod_nonneg fun j _ => ?_
    rw [mem_incTuples] at hi
    exact (h j j.2 _ (hi.1 j)).1
  · refine Finset.sum_le_sum fun i hi => ?_
    rw [mem_incTuples] at hi
    exact Finset.prod_le_prod (fun j _ => (h j j.2 _ (hi.1 j)).1) fun j _ => (h j j.2 _ (hi.1 j)).2

theorem fastSingle_mono {expf : R → R} (hexp : ExpLike expf) {k : SemiringKind} (hk : k = .reals ∨ k = .bayesian) {Z Z' : List (List R)} {n : ℕ}
    (hZ : Rect Z n) (hne : Z ≠ []) (hZ' : Rect Z' n) (hne' : Z' ≠ [])
    {word : List (List ℤ)} (hfit : ∀ el ∈ word, Fits Z el) (hfit' : ∀ el ∈ word, Fits Z' el) (alpha : List R) {g : List R} (hg : g.length = n)
    {ext : ℕ} (hext : ext ≤ word.length) (total : Bool)
    (hm : ∀ j < word.length, ∀ t < n, 0 ≤ monos Z word j t ∧ monos Z word j t ≤ monos Z' word j t) :
    ∃ F F' : ℕ → ℕ → R, fastSingle expf k Z word alpha g ext total = tab ext (fun r => tab n (F r)) ∧
      fastSingle expf k Z' word alpha g ext total = tab ext (fun r => tab n (F' r)) ∧ ∀ r < ext, ∀ t < n, 0 ≤ F r t ∧ F r t ≤ F' r t := by
  have hpen : ∀ (k : ℕ) (s : ℕ), (0 : R) ≤ if k = 0 then 1 else expf (-g.getD s 0 * alpha.getD (k - 1) 0) := by
    intro k s
    split
    · exact zero_le_one
    · exact (hexp.pos _).le
  have haW : ∀ j < word.length, ∀ t < n, 0 ≤ aW expf (monos Z word) (alpha.getD · 0) (g.getD · 0) j t ∧
      aW expf (monos Z word) (alpha.getD · 0) (g.getD · 0) j t ≤ aW expf (monos Z' word) (alpha.getD · 0) (g.getD · 0) j t := by
    intro j hj t ht
    unfold aW
    have h := hm j hj t ht
    exact ⟨mul_nonneg (mul_nonneg h.1 (hpen _ _)) (hexp.pos _).le,
      mul_le_mul_of_nonneg_right (mul_le_mul_of_nonneg_right h.2 (hpen _ _)) (hexp.pos _).le⟩
  rcases hk with rfl | rfl
  · cases total with
    | true =>
      refine ⟨_, _, totalReals_eq expf hZ hne hfit alpha hg hext, totalReals_eq expf hZ' hne' hfit' alpha hg hext, fun r hr t ht => ?_⟩
      have := incSum_mono (p := word.length - ext + r + 1) (t := t + 1) fun j hj s hs => haW j (by omega) s (by omega)
      exact ⟨mul_nonneg this.1 (hexp.pos _).le, mul_le_mul_of_nonneg_right this.2 (hexp.pos _).le⟩
    | false =>
      refine ⟨_, _, realsSingle_eq expf hZ hne hfit alpha hg hext, realsSingle_eq expf hZ' hne' hfit' alpha hg hext, fun r hr t ht => ?_⟩
      have hrow : ∀ s ∈ Finset.range (t + 1), _ := fun s hs =>
        incSum_mono (p := word.length - ext + r) (t := s) fun j hj u hu => haW j (by omega) u (by have := Finset.mem_range.1 hs; omega)
      have hmon : ∀ s ∈ Finset.range (t + 1), _ := fun s hs => hm (word.length - ext + r) (by omega) s (by have := Finset.mem_range.1 hs; omega)
      refine ⟨Finset.sum_nonneg fun s hs => mul_nonneg (hrow s hs).1 (mul_nonneg (hmon s hs).1 (hpen _ _)), Finset.sum_le_sum fun s hs => ?_⟩
      exact mul_le_mul (hrow s hs).2 (mul_le_mul_of_nonneg_right (hmon s hs).2 (hpen _ _)) (mul_nonneg (hmon s hs).1 (hpen _ _))
        ((hrow s hs).1.trans (hrow s hs).2)
  · cases total with
    | true =>
      refine ⟨_, _, totalBayesian_eq expf hZ hne hfit alpha hg hext, totalBayesian_eq expf hZ' hne' hfit' alpha hg hext, fun r hr t ht => ?_⟩
      have := chainMax_mul_mono (p := word.length - ext + r + 1) (t := t) fun j hj s hs => haW j (by omega) s (by omega)
      exact ⟨mul_nonneg this.1 (hexp.pos _).le, mul_le_mul_of_nonneg_right this.2 (hexp.pos _).le⟩
    | false =>
      refine ⟨_, _, bayesianSingle_eq expf hZ hne hfit alpha hg hext, bayesianSingle_eq expf hZ' hne' hfit' alpha hg hext, fun r hr t ht => ?_⟩
      have hrow : ∀ s ≤ t, _ := fun s hs =>
        chainMax_mul_mono (p := word.length - ext + r) (t := s) fun j hj u hu => haW j (by omega) u (by omega)
      have hmon : ∀ s ≤ t, _ := fun s hs => hm (word.length - ext + r) (by omega) s (by omega)
      refine ⟨le_trans ?_ (le_runMax _ (Nat.zero_le t)), runMax_mono_fun fun s hs => ?_⟩
      · exact mul_nonneg (hrow 0 (Nat.zero_le _)).1 (mul_nonneg (hmon 0 (Nat.zero_le _)).1 (hpen _ _))
      · exact mul_le_mul (hrow s hs).2 (mul_le_mul_of_nonneg_right (hmon s hs).2 (hpen _ _)) (mul_nonneg (hmon s hs).1 (hpen _ _))
          ((hrow s hs).1.trans (hrow s hs).2)

theorem monomial_mono {Z Z' : List (List R)} {el : List ℤ} {t : ℕ} (he : ∀ e ∈ el, 0 ≤ e)
    (h : ∀ d < el.length, 0 ≤ entry Z d t ∧ entry Z d t ≤ entry Z' d t) : 0 ≤ monomial Z el t ∧ monomial Z el t ≤ monomial Z' el t := by
  have hd : ∀ d ∈ Finset.range el.length, 0 ≤ entry Z d t ^ (el.getD d 0) ∧ entry Z d t ^ (el.getD d 0) ≤ entry Z' d t ^ (el.getD d 0) := by
    intro d hd
    have hd := Finset.mem_range.1 hd
    obtain ⟨e, hee⟩ := Int.eq_ofNat_of_zero_le (he _ (getD_mem_of_lt (d := 0) hd))
    rw [hee]
    simp only [Int.ofNat_eq_natCast, zpow_natCast]
    exact ⟨pow_nonneg (h d hd).1 _, pow_le_pow_left₀ (h d hd).1 (h d hd).2 _⟩
  exact ⟨Finset.prod_nonneg fun d h => (hd d h).1, Finset.prod_le_prod (fun d h => (hd d h).1) fun d h => (hd d h).2⟩

/-- **C162** (monotonicity, Reals and Bayesian): with non-negative exponents, non-negative data give non-negative iterated sums, and larger data give
larger ones. -/
theorem C162_monotone {expf : R → R} (hexp : ExpLike expf) (c : ISSConf R) (hs : SimpleISS c) (hc : c.semiring = .reals ∨ c.semiring = .bayesian)
    {X X' : Data R} {m d n : ℕ} (hX : HasShape X m d n) (hd : 0 < d)
    (hw : ∀ s, IWord.simple s ∈ c.words → ∀ el ∈ s.els, el.length ≤ d ∧ ∀ e ∈ el, 0 ≤ e)
    (hXX : Entrywise (fun x y => 0 ≤ x ∧ x ≤ y) X X') {wt' : Option (Weighting R)} (hwt : SameWeights n X X' c.weighting wt') :
    ∃ A A', c.transform expf X = .ok A ∧ ({ c with weighting := wt' } : ISSConf R).transform expf X' = .ok A' ∧
      Entrywise (fun x y => 0 ≤ x ∧ x ≤ y) A A' := by
  obtain ⟨hX', he⟩ := hXX.entries hX
  refine transform_rel expf c hs hXX.length_eq.symm (fun Z hZ => (shape_facts hX hd hZ).2) (fun Z hZ => (shape_facts hX' hd hZ).2) hwt _ ?_
  intro s hsm j hj hj' alpha g total ext hg hext
  have hZ := List.getElem_mem hj
  have hZ' := List.getElem_mem hj'
  have hfit : ∀ el ∈ s.els, Fits X[j] el := fun el hel => by unfold Fits; rw [(hX.2 _ hZ).1]; exact (hw s hsm el hel).1
  have hfit' : ∀ el ∈ s.els, Fits X'[j] el := fun el hel => by unfold Fits; rw [(hX'.2 _ hZ').1]; exact (hw s hsm el hel).1
  refine fastSingle_mono hexp hc (hX.2 _ hZ).2 (shape_facts hX hd hZ).1 (hX'.2 _ hZ').2 (shape_facts hX' hd hZ').1
    hfit hfit' alpha hg hext total fun k hk t ht => ?_
  have hel := hw s hsm _ (getD_mem_of_lt (d := []) hk)
  exact monomial_mono hel.2 fun d' hd' => he j hj hj' d' (lt_of_lt_of_le hd' hel.1) t ht

/-! ### Reals: stability -/

/-- `a` and `b` are products of `k` numbers of absolute value at most `M`, of which corresponding ones differ by at most `ε`. -/
structure Degree (M ε : R) (k : ℕ) (a b : R) : Prop where
  left : |a| ≤ M ^ k
  right : |b| ≤ M ^ k
  diff : |a - b| ≤ k * ε * M ^ (k - 1)

theorem Degree.one {M ε : R} : Degree M ε 0 1 1 := ⟨by simp, by simp, by simp⟩

theorem Degree.mul {M ε : R} (hM : 0 ≤ M) {k l : ℕ} {a b a' b' : R} (h : Degree M ε k a b) (h' : Degree M ε l a' b') :
    Degree M ε (k + l) (a * a') (b * b') := by
  refine ⟨?_, ?_, ?_⟩
  · rw [abs_mul, pow_add]; exact mul_le_mul h.left h'.left (abs_nonneg _) (pow_nonneg hM _)
  · rw [abs_mul, pow_add]; exact mul_le_mul h.right h'.right (abs_nonneg _) (pow_nonneg hM _)
  · have e : a * a' - b * b' = (a - b) * a' + b * (a' - b') := by ring
    have h1 : |(a - b) * a'| ≤ k * ε * M ^ (k - 1) * M ^ l := by
      rw [abs_mul]
      exact mul_le_mul h.diff h'.left (abs_nonneg _) ((abs_nonneg _).trans h.diff)
    have h2 : |b * (a' - b')| ≤ M ^ k * (l * ε * M ^ (l - 1)) := by
      rw [abs_mul]
      exact mul_le_mul h.right h'.diff (abs_nonneg _) (pow_nonneg hM _)
    rw [e]
    refine (abs_add_le _ _).trans ((add_le_add h1 h2).trans (le_of_eq ?_))
    rcases k with _ | k <;> rcases l with _ | l
    · simp
    · simp
    · simp
    · have : k + 1 + (l + 1) - 1 = k + 1 + l := by omega
      rw [this, Nat.add_sub_cancel, Nat.add_sub_cancel]
      push_cast
      ring

theorem Degree.pow {M ε : R} (hM : 0 ≤ M) {a b : R} (h : Degree M ε 1 a b) (k : ℕ) : Degree M ε k (a ^ k) (b ^ k) := by
  induction k with
  | zero => simpa using Degree.one
  | succ k ih => rw [pow_succ, pow_succ]; exact ih.mul hM h

theorem Degree.prod {M ε : R} (hM : 0 ≤ M) {ι : Type} (s : Finset ι) {k : ι → ℕ} {a b : ι → R} (h : ∀ i ∈ s, Degree M ε (k i) (a i) (b i)) :
    Degree M ε (∑ i ∈ s, k i) (∏ i ∈ s, a i) (∏ i ∈ s, b i) := by
  classical
  induction s using Finset.induction_on with
  | empty => simpa using Degree.one
  | insert i s hi ih =>
    rw [Finset.sum_insert hi, Finset.prod_insert hi, Finset.prod_insert hi]
    exact (h i (Finset.mem_insert_self _ _)).mul hM (ih fun j hj => h j (Finset.mem_insert_of_mem hj))

theorem monomial_degree {M ε : R} (hM : 0 ≤ M) {Z Z' : List (List R)} {el : List ℤ} {t : ℕ} (he : ∀ e ∈ el, 0 ≤ e)
    (h : ∀ d < el.length, Degree M ε 1 (entry Z d t) (entry Z' d t)) :
    Degree M ε (el.map Int.natAbs).sum (monomial Z el t) (monomial Z' el t) := by
  rw [← sum_range_map_getD Int.natAbs el 0]
  refine Degree.prod hM _ fun d hd => ?_
  have hd := Finset.mem_range.1 hd
  obtain ⟨e, hee⟩ := Int.eq_ofNat_of_zero_le (he _ (getD_mem_of_lt (d := 0) hd))
  rw [hee]
  simp only [Int.ofNat_eq_natCast, zpow_natCast, Int.natAbs_natCast]
  exact (h d hd).pow hM e

/-- There are `n` over `p` increasing tuples of `p` numbers below `n`. -/
theorem card_incTuples (p n : ℕ) : (incTuples p n).card = n.choose p := by
  induction p generalizing n with
  | zero => simp [incTuples_zero]
  | succ p ih =>
    have h := sum_incTuples_succ p n fun _ => 1
    rw [Finset.card_eq_sum_ones, h]
    have e : ∀ s ∈ Finset.range n, ∑ _i ∈ incTuples p s, 1 = s.choose p := fun s _ => by rw [← Finset.card_eq_sum_ones, ih]
    rw [Finset.sum_congr rfl e]
    clear h e ih
    induction n with
    | zero => simp
    | succ n ih => rw [Finset.sum_range_succ, ih, Nat.choose_succ_succ, add_comm]

/-- **C162** (stability, Reals): data in `[-M, M]` whose entries differ by at most `ε` give iterated sums that differ by at most
`(number of increasing tuples) · N · ε · M^(N-1)`, `N` the sum of the exponents of the word. -/
theorem C162_reals_stable {expf : R → R} (hexp : ExpLike expf) {X X' : Data R} {m D n : ℕ} {words : List (SWord R)} (hX : HasShape X m D n)
    (hadm : Admissible X D n words) (hpos : ∀ w ∈ words, ∀ el ∈ w.els, ∀ e ∈ el, 0 ≤ e) {M ε : R}
    (hXX : Entrywise (fun x y => |x| ≤ M ∧ |y| ≤ M ∧ |x - y| ≤ ε) X X') :
    ∃ A A', (⟨words.map .simple, .single, .reals, none⟩ : ISSConf R).transform expf X = .ok A ∧
      (⟨words.map .simple, .single, .reals, none⟩ : ISSConf R).transform expf X' = .ok A' ∧
      HasShape A words.length m n ∧ HasShape A' words.length m n ∧
      ∀ (i : ℕ) (hi : i < words.length), ∀ j < m, ∀ t < n, |at3 A i j t - at3 A' i j t| ≤
        ((t + 1).choose words[i].els.length : R) * (absWeight words[i] * ε * M ^ (absWeight words[i] - 1)) := by
  obtain ⟨hX', he⟩ := hXX.entries hX
  have hadm' : Admissible X' D n words := ⟨fun Z hZ => hX'.2 Z hZ, hadm.dims, hadm.nonempty, hadm.letters, hadm.fits⟩
  have hdiv : ∀ Y : Data R, NoZeroDivision Y n words := by
    intro Y w hw el hel d hd h
    exact absurd (hpos w hw el hel _ (getD_mem_of_lt (d := 0) hd)) (by omega)
  refine ⟨_, _, C01_reals_iss hexp hadm (hdiv X), C01_reals_iss hexp hadm' (hdiv X'), ?_, ?_, ?_⟩
  · refine ⟨by simp, fun s hs => ?_⟩
    obtain ⟨w, _, rfl⟩ := List.mem_map.1 hs
    refine ⟨by simp [hX.1], fun r hr => ?_⟩
    obtain ⟨Z, _, rfl⟩ := List.mem_map.1 hr
    simp
  · refine ⟨by simp, fun s hs => ?_⟩
    obtain ⟨w, _, rfl⟩ := List.mem_map.1 hs
    refine ⟨by simp [hX'.1], fun r hr => ?_⟩
    obtain ⟨Z, _, rfl⟩ := List.mem_map.1 hr
    simp
  · intro i hi j hj t ht
    have hjX : j < X.length := by rw [hX.1]; exact hj
    have hjX' : j < X'.length := by rw [hX'.1]; exact hj
    have hM : 0 ≤ M := (abs_nonneg _).trans (he j hjX hjX' 0 hadm.dims t ht).1
    have e : ∀ (Y : Data R) (hY : j < Y.length), at3 (words.map fun w => Y.map fun Z => tab n fun t =>
        ∑ i ∈ incTuples w.els.length (t + 1), ∏ k : Fin w.els.length, monomial Z w.els[k] (i k)) i j t =
        ∑ x ∈ incTuples words[i].els.length (t + 1), ∏ k : Fin words[i].els.length, monomial Y[j] words[i].els[k] (x k) := by
      intro Y hY
      simp [at3, List.getD_eq_getElem?_getD, hi, hY, ht]
    rw [e X hjX, e X' hjX', ← Finset.sum_sub_distrib]
    refine (Finset.abs_sum_le_sum_abs _ _).trans ?_
    rw [← card_incTuples, ← nsmul_eq_mul]
    refine Finset.sum_le_card_nsmul _ _ _ fun x hx => ?_
    rw [mem_incTuples] at hx
    have key : Degree M ε (absWeight words[i]) (∏ k : Fin words[i].els.length, monomial X[j] words[i].els[k] (x k))
        (∏ k : Fin words[i].els.length, monomial X'[j] words[i].els[k] (x k)) := by
      have hN : absWeight words[i] = ∑ k : Fin words[i].els.length, (words[i].els[k].map Int.natAbs).sum := by
        rw [absWeight, ← sum_range_map_getD (fun el : List ℤ => (el.map Int.natAbs).sum) _ [], Finset.sum_range]
        refine Finset.sum_congr rfl fun k _ => ?_
        simp [List.getD_eq_getElem?_getD]
      rw [hN]
      refine Degree.prod hM _ fun k _ => ?_
      have hw := List.getElem_mem hi
      have hel : words[i].els[k] ∈ words[i].els := List.getElem_mem _
      refine monomial_degree hM (hpos _ hw _ hel) fun d hd => ?_
      have h := he j hjX hjX' d (lt_of_lt_of_le hd (hadm.fits _ hw _ hel)) (x k) (by have := hx.1 k; omega)
      exact ⟨by simpa using h.1, by simpa using h.2.1, by simpa using h.2.2⟩
    exact key.diff

/-! ### Features -/

/-- A segment sieve `END`, or `MAX`/`MIN` with the default `q`, all of whose cuts are integers inside of the series. -/
structure PlainSegments (n : ℕ) (k : SegKind) (p : Seg R) : Prop where
  kind : k = .end_ ∨ (k = .max ∨ k = .min) ∧ p.q = [-1, 1]
  ints : ∀ c ∈ p.cut, ∃ z : ℤ, c = .int z ∧ -(n + 1 : ℤ) ≤ z ∧ z ≤ n

theorem PlainSegments.bounds_eq {n : ℕ} {k : SegKind} {p : Seg R} (h : PlainSegments n k p) (C C' : Data R) (i : ℕ) :
    p.cut.map (cutPos C p.norm n i) = p.cut.map (cutPos C' p.norm n i) := by
  refine List.map_congr_left fun c hc => ?_
  obtain ⟨z, rfl, _⟩ := h.ints c hc
  rfl

theorem greatest_close {f g : ℕ → R} {S : Set ℕ} {a b δ : R} (ha : IsGreatest (f '' S) a) (hb : IsGreatest (g '' S) b)
    (h : ∀ s ∈ S, |f s - g s| ≤ δ) : |a - b| ≤ δ := by
  obtain ⟨⟨s, hs, rfl⟩, ha⟩ := ha
  obtain ⟨⟨t, ht, rfl⟩, hb⟩ := hb
  have h1 := ha ⟨t, ht, rfl⟩
  have h2 := hb ⟨s, hs, rfl⟩
  have h3 := abs_le.1 (h s hs)
  have h4 := abs_le.1 (h t ht)
  rw [abs_le]
  constructor <;> linarith

theorem least_close {f g : ℕ → R} {S : Set ℕ} {a b δ : R} (ha : IsLeast (f '' S) a) (hb : IsLeast (g '' S) b)
    (h : ∀ s ∈ S, |f s - g s| ≤ δ) : |a - b| ≤ δ := by
  obtain ⟨⟨s, hs, rfl⟩, ha⟩ := ha
  obtain ⟨⟨t, ht, rfl⟩, hb⟩ := hb
  have h1 := ha ⟨t, ht, rfl⟩
  have h2 := hb ⟨s, hs, rfl⟩
  have h3 := abs_le.1 (h s hs)
  have h4 := abs_le.1 (h t ht)
  rw [abs_le]
  constructor <;> linarith

theorem entrywise2 {Q : R → R → Prop} {A B : List (List R)} {m n : ℕ} (hA : HasShape2 A m n) (hB : HasShape2 B m n)
    (h : ∀ i < m, ∀ j < n, Q (at2 A i j) (at2 B i j)) : List.Forall₂ (List.Forall₂ Q) A B := by
  rw [hA.eq_tab, hB.eq_tab]
  exact forall₂_tab' fun i hi => forall₂_tab' fun j hj => h i hi j hj

/-- **C162** (features): `END`, `MAX` and `MIN` change by at most the change of the iterated sum. -/
theorem C162_segments_stable (T : FloatText R) (hT : T.Lawful) {k : SegKind} {p : Seg R} {m dc n : ℕ} (hp : PlainSegments n k p)
    {C C' : Data R} (hC : HasShape C m dc n) (hC' : HasShape C' m dc n) (hm : 0 < m) (hdc : 0 < dc) (hn : 0 < n) {A A' : List (List R)}
    (hA : HasShape2 A m n) (hA' : HasShape2 A' m n) {δ : R} (hδ : 0 ≤ δ) (h : ∀ i < m, ∀ t < n, |at2 A i t - at2 A' i t| ≤ δ) :
    ∃ Y Y', (Sieve.seg k p).transformC T C A = .ok Y ∧ (Sieve.seg k p).transformC T C' A' = .ok Y' ∧
      HasShape2 Y m p.cut.length ∧ HasShape2 Y' m p.cut.length ∧ ∀ i < m, ∀ j < p.cut.length, |at2 Y i j - at2 Y' i j| ≤ δ := by
  have hr : ∀ c ∈ p.cut, c.InRange n := by
    intro c hc
    obtain ⟨z, rfl, hz⟩ := hp.ints c hc
    exact hz
  have hb : ∀ i, bounds C p n i = bounds C' p n i := fun i => by unfold bounds; rw [hp.bounds_eq C C' i]
  have hle : ∀ i < m, ∀ j < p.cut.length, (bounds C p n i).getD (j + 1) 0 ≤ n := by
    intro i _ j hj
    have hmem : (bounds C p n i).getD (j + 1) 0 ∈ bounds C p n i := getD_mem_of_lt (by rw [bounds_length]; omega)
    generalize (bounds C p n i).getD (j + 1) 0 = v at hmem
    rw [bounds, List.mem_insertionSort, List.mem_cons] at hmem
    rcases hmem with rfl | hmem
    · omega
    · obtain ⟨c, hc, rfl⟩ := List.mem_map.1 hmem
      obtain ⟨z, rfl, hz⟩ := hp.ints c hc
      simp only [cutPos]
      split <;> omega
  rcases hp.kind with rfl | ⟨hk, hq⟩
  · obtain ⟨Y, h1, h2, h3⟩ := C62 T hT C p A hA hC hm hdc hn hr
    obtain ⟨Y', h1', h2', h3'⟩ := C62 T hT C' p A' hA' hC' hm hdc hn hr
    refine ⟨Y, Y', h1, h1', h2, h2', fun i hi j hj => ?_⟩
    have a1 := h3 i hi j hj _ rfl
    have a2 := h3' i hi j hj _ rfl
    rw [hp.bounds_eq C C' i] at a1
    rcases Nat.eq_zero_or_pos (((p.cut.map (cutPos C' p.norm n i)).insertionSort (· ≤ ·)).getD j 0) with hz | hz
    · rw [a1.2 hz, a2.2 hz]; exact h i hi _ (by omega)
    · rw [(a1.1 hz).2, (a2.1 hz).2]
      have := (a1.1 hz).1
      exact h i hi _ (by omega)
  · obtain ⟨Y, Z, h1, h2, g1, g2, h3⟩ := C61 T hT C p hq A hA hC hm hdc hn hr
    obtain ⟨Y', Z', h1', h2', g1', g2', h3'⟩ := C61 T hT C' p hq A' hA' hC' hm hdc hn hr
    have key : ∀ i < m, ∀ j < p.cut.length, |at2 Y i j - at2 Y' i j| ≤ δ ∧ |at2 Z i j - at2 Z' i j| ≤ δ := by
      intro i hi j hj
      have a1 := h3 i hi j hj _ _ rfl rfl
      have a2 := h3' i hi j hj _ _ rfl rfl
      rw [← hb i] at a2
      by_cases he : (bounds C p n i).getD j 0 = (bounds C p n i).getD (j + 1) 0
      · rw [(a1.1 he).1, (a1.1 he).2, (a2.1 he).1, (a2.1 he).2]; simpa using hδ
      · obtain ⟨_, b1, b2⟩ := a1.2 he
        obtain ⟨_, c1, c2⟩ := a2.2 he
        have hs : ∀ s ∈ Set.Ico ((bounds C p n i).getD j 0) ((bounds C p n i).getD (j + 1) 0), |at2 A i s - at2 A' i s| ≤ δ :=
          fun s hs => h i hi s (lt_of_lt_of_le hs.2 (hle i hi j hj))
        exact ⟨greatest_close b1 c1 hs, least_close b2 c2 hs⟩
    rcases hk with rfl | rfl
    · exact ⟨Y, Y', h1, h1', h2, h2', fun i hi j hj => (key i hi j hj).1⟩
    · exact ⟨Z, Z', g1, g1', g2, g2', fun i hi j hj => (key i hi j hj).2⟩

theorem mapM_related {α β γ : Type} {f : α → Except Err γ} {g : β → Except Err γ} {P : α → β → Prop} {Q : γ → γ → Prop}
    (h : ∀ a b, P a b → ∃ x y, f a = .ok x ∧ g b = .ok y ∧ Q x y) {A : List α} {B : List β} (hAB : List.Forall₂ P A B) :
    ∃ X Y, A.mapM f = .ok X ∧ B.mapM g = .ok Y ∧ List.Forall₂ Q X Y := by
  induction hAB with
  | nil => exact ⟨[], [], rfl, rfl, .nil⟩
  | cons hab _ ih =>
    obtain ⟨x, y, h1, h2, h3⟩ := h _ _ hab
    obtain ⟨X, Y, g1, g2, g3⟩ := ih
    refine ⟨x :: X, y :: Y, ?_, ?_, .cons h3 g3⟩
    · rw [List.mapM_cons, h1, ok_bind, g1, ok_bind]; rfl
    · rw [List.mapM_cons, h2, ok_bind, g2, ok_bind]; rfl

theorem transform_shape2 (expf : R → R) {c : ISSConf R} (hs : SimpleISS c) {X : Data R} {m d n : ℕ} (hX : HasShape X m d n) (hd : 0 < d)
    (hw : ∀ s, IWord.simple s ∈ c.words → ∀ el ∈ s.els, el.length ≤ d) (hwt : ∀ v, c.weighting = some v → LookupFor v X n) {A : Data R}
    (h : c.transform expf X = .ok A) : ∀ a ∈ A, HasShape2 a m n := by
  rw [transform_eq expf (fun h => absurd h hs.semiring) hs.nonempty] at h
  obtain rfl := Except.ok.inj h
  rw [blockRows_flatten]
  intro a ha
  obtain ⟨l, hl, ha⟩ := List.mem_flatten.1 ha
  obtain ⟨i, hi, rfl⟩ := List.mem_mapIdx.1 hl
  have hmem := List.getElem_mem hi
  generalize hword : c.words[i] = w at ha hmem
  obtain ⟨s, rfl⟩ := hs.simple w hmem
  unfold ISSConf.wordRows at ha
  refine swapAxes_shape (iteratedSums_shape expf c.semiring hX hd (w := .simple s) (fun el hel => hw s hmem el hel) _ fun v hv => ?_)
    (by rw [iteratedSums_count, hX.1]) a ha
  exact ⟨m, ⟨by rw [(hwt v hv).1, hX.1], (hwt v hv).2⟩, le_rfl⟩

/-- **C162** (pipeline): the features that an Arctic `ISS` followed by `END`, `MAX` or `MIN` computes change by at most `N·ε` when the data
change by at most `ε`. -/
theorem C162_pipeline (T : FloatText R) (hT : T.Lawful) (expf : R → R) (words : List (IWord R)) (mode : ISSMode)
    (hs : SimpleISS (⟨words, mode, .arctic, none⟩ : ISSConf R)) {X X' : Data R} {m d n : ℕ} (hX : HasShape X m d n) (hm : 0 < m) (hd : 0 < d)
    (hn : 0 < n) (hw : ∀ s, IWord.simple s ∈ words → ∀ el ∈ s.els, el.length ≤ d) {ε : R} (hε : 0 ≤ ε)
    (hXX : Entrywise (fun x y => |x - y| ≤ ε) X X') {wt : Option (Bool × WeightingKind R)} {w w' : Option (Weighting R)}
    (hw1 : weightingOf T X X wt = .ok w) (hw2 : weightingOf T X' X' wt = .ok w') (hwt : SameWeights n X X' w w') {N : ℕ}
    (hN : ∀ s, IWord.simple s ∈ words → absWeight s ≤ N) {k : SegKind} {p : Seg R} (hp : PlainSegments n k p) :
    ∃ Y Y', issSieve T expf words mode .arctic wt (.seg k p) X X = .ok Y ∧ issSieve T expf words mode .arctic wt (.seg k p) X' X' = .ok Y' ∧
      Entrywise (fun x y => |x - y| ≤ N * ε) Y Y' := by
  have hs' : SimpleISS (⟨words, mode, .arctic, w⟩ : ISSConf R) := ⟨hs.1, hs.2, hs.3, hs.4, hs.5⟩
  obtain ⟨hX', -⟩ := hXX.entries hX
  obtain ⟨A, A', h1, h2, h3⟩ := C162_arctic_stable expf ⟨words, mode, .arctic, w⟩ hs' rfl hX hd hw hε hXX hwt hN
  unfold issSieve
  simp only [hw1, hw2, ok_bind, h1]
  rw [show (⟨words, mode, .arctic, w'⟩ : ISSConf R).transform expf X' = .ok A' from h2, ok_bind]
  have hrow : ∀ a b, List.Forall₂ (List.Forall₂ fun x y : R => |x - y| ≤ N * ε) a b → HasShape2 a m n → HasShape2 b m n := by
    intro a b hab ha
    rw [List.forall₂_iff_get] at hab
    refine ⟨by rw [← hab.1]; exact ha.1, fun r hr => ?_⟩
    obtain ⟨i, hi, rfl⟩ := List.getElem_of_mem hr
    have hi' : i < a.length := by omega
    rw [← ha.2 _ (List.getElem_mem hi')]
    exact (hab.2 i hi' hi).length_eq.symm
  have hA : ∀ a ∈ A, HasShape2 a m n := transform_shape2 expf hs' hX hd hw (fun v hv => by
    subst hv; cases hwt with | some g g' total look same => exact look) h1
  have hAA : List.Forall₂ (fun a b => HasShape2 a m n ∧ HasShape2 b m n ∧ ∀ i < m, ∀ t < n, |at2 a i t - at2 b i t| ≤ N * ε) A A' := by
    clear h1 h2
    unfold Entrywise at h3
    induction h3 with
    | nil => exact .nil
    | cons hab _ ih =>
      refine .cons ?_ (ih fun a ha => hA a (List.mem_cons_of_mem _ ha))
      have ha := hA _ List.mem_cons_self
      refine ⟨ha, hrow _ _ hab ha, fun i hi t ht => ?_⟩
      have h4 := forall₂_getD' hab (i := i) (by rw [ha.1]; exact hi) [] []
      refine forall₂_getD' h4 ?_ 0 0
      rw [ha.2 _ (getD_mem_of_lt (by rw [ha.1]; exact hi))]
      exact ht
  refine mapM_related (fun a b hab => ?_) hAA
  obtain ⟨Y, Y', g1, g2, g3, g4, g5⟩ := C162_segments_stable T hT hp hX hX' hm hd hn hab.1 hab.2.1
    (mul_nonneg (Nat.cast_nonneg N) hε) hab.2.2
  exact ⟨Y, Y', g1, g2, entrywise2 g3 g4 g5⟩

/-! ### Calls that meet the hypotheses -/

namespace StabilityExample

noncomputable def X : Data ℝ := [[[1, 2, 3], [0, 5, 1]], [[4, 4, 0], [2, 2, 7]]]
noncomputable def X' : Data ℝ := [[[1, 2, 4], [1, 5, 1]], [[4, 4, 1], [2, 3, 7]]]

theorem shape : HasShape X 2 2 3 := by
  refine ⟨rfl, fun Z hZ => ?_⟩
  simp only [X, List.mem_cons, List.not_mem_nil, or_false] at hZ
  rcases hZ with rfl | rfl <;> refine ⟨rfl, fun r hr => ?_⟩ <;> simp only [List.mem_cons, List.not_mem_nil, or_false] at hr <;>
    rcases hr with rfl | rfl <;> rfl

theorem close : Entrywise (fun x y => |x - y| ≤ 1) X X' := by norm_num [Entrywise, X, X']
theorem below : Entrywise (fun x y => x ≤ y) X X' := by norm_num [Entrywise, X, X']
theorem below' : Entrywise (fun x y => 0 ≤ x ∧ x ≤ y) X X' := by norm_num [Entrywise, X, X']
theorem bounded : Entrywise (fun x y => |x| ≤ 7 ∧ |y| ≤ 7 ∧ |x - y| ≤ 1) X X' := by
  simp only [Entrywise, X, X', List.forall₂_cons, List.Forall₂.nil, and_true]
  norm_num [abs_le]

theorem weights : SameWeights 3 X X' (some LogExample.wt) (some LogExample.wt) := by
  refine SameWeights.some _ _ rfl ⟨by simp [LogExample.wt], fun g hg => ?_⟩ (by simp [LogExample.wt, X, X'])
  obtain ⟨_, _, rfl⟩ := List.mem_map.1 hg
  rfl

/-- EXTENDED mode, a weighting, `[1][12]` and `[1][-2]`: the Arctic iterated sums of the two datasets differ by at most 3. -/
example : ∃ A A', LogExample.conf.transform Real.exp X = .ok A ∧ LogExample.conf.transform Real.exp X' = .ok A' ∧
    Entrywise (fun x y => |x - y| ≤ (3 : ℕ) * (1 : ℝ)) A A' := by
  refine C162_arctic_stable Real.exp LogExample.conf LogExample.conf_simple rfl shape (by omega) ?_ zero_le_one close weights ?_
  · intro s hs el hel
    simp only [LogExample.conf, LogExample.words, List.map_cons, List.map_nil, List.mem_cons, List.not_mem_nil, or_false, IWord.simple.injEq] at hs
    rcases hs with rfl | rfl <;> simp only [List.mem_cons, List.not_mem_nil, or_false] at hel <;> rcases hel with rfl | rfl <;> simp
  · intro s hs
    simp only [LogExample.conf, LogExample.words, List.map_cons, List.map_nil, List.mem_cons, List.not_mem_nil, or_false, IWord.simple.injEq] at hs
    rcases hs with rfl | rfl <;> simp [absWeight]

/-- `SimpleWord("[1][12]")` and `SimpleWord("[22]")`. -/
noncomputable def words : List (SWord ℝ) := [⟨[[1], [1, 1]], 2, "[1][12]".toList, some [1, 2]⟩, ⟨[[0, 2]], 2, "[22]".toList, some [1]⟩]

noncomputable def conf (k : SemiringKind) : ISSConf ℝ := ⟨words.map .simple, .extended, k, some LogExample.wt⟩

theorem conf_simple {k : SemiringKind} (hk : k ≠ .arcticArgmax) : SimpleISS (conf k) where
  semiring := hk
  nonempty := by simp [conf, words]
  simple := by intro v hv; obtain ⟨u, _, rfl⟩ := List.mem_map.1 hv; exact ⟨u, rfl⟩
  letters := by
    intro w hw
    simp only [conf, words, List.map_cons, List.map_nil, List.mem_cons, List.not_mem_nil, or_false] at hw
    rcases hw with rfl | rfl <;> simp [IWord.len]
  blocks := fun _ w hw => by
    simp only [conf, words, List.map_cons, List.map_nil, List.mem_cons, List.not_mem_nil, or_false] at hw
    rcases hw with rfl | rfl
    · exact ⟨["1".toList, "12".toList], by simp [BlocksOK, BracketFree], rfl, rfl⟩
    · exact ⟨["22".toList], by simp [BlocksOK, BracketFree], rfl, rfl⟩

theorem fits (k : SemiringKind) : ∀ s, IWord.simple s ∈ (conf k).words → ∀ el ∈ s.els, el.length ≤ 2 ∧ ∀ e ∈ el, 0 ≤ e := by
  intro s hs el hel
  simp only [conf, words, List.map_cons, List.map_nil, List.mem_cons, List.not_mem_nil, or_false, IWord.simple.injEq] at hs
  rcases hs with rfl | rfl
  · simp only [List.mem_cons, List.not_mem_nil, or_false] at hel
    rcases hel with rfl | rfl <;> simp
  · simp only [List.mem_cons, List.not_mem_nil, or_false] at hel
    subst hel; simp

example : ∃ A A', (conf .arctic).transform Real.exp X = .ok A ∧ (conf .arctic).transform Real.exp X' = .ok A' ∧ Entrywise (fun x y => x ≤ y) A A' :=
  C162_arctic_monotone Real.exp (conf .arctic) (conf_simple (by simp)) rfl shape (by omega) (fits _) below weights

example : ∃ A A', (conf .reals).transform Real.exp X = .ok A ∧ (conf .reals).transform Real.exp X' = .ok A' ∧
    Entrywise (fun x y => 0 ≤ x ∧ x ≤ y) A A' :=
  C162_monotone ⟨Real.exp_add, Real.exp_pos⟩ (conf .reals) (conf_simple (by simp)) (Or.inl rfl) shape (by omega) (fits _) below' weights

example : ∃ A A', (conf .bayesian).transform Real.exp X = .ok A ∧ (conf .bayesian).transform Real.exp X' = .ok A' ∧
    Entrywise (fun x y => 0 ≤ x ∧ x ≤ y) A A' :=
  C162_monotone ⟨Real.exp_add, Real.exp_pos⟩ (conf .bayesian) (conf_simple (by simp)) (Or.inr rfl) shape (by omega) (fits _) below' weights

example : ∃ A A', (⟨words.map .simple, .single, .reals, none⟩ : ISSConf ℝ).transform Real.exp X = .ok A ∧
      (⟨words.map .simple, .single, .reals, none⟩ : ISSConf ℝ).transform Real.exp X' = .ok A' ∧
      HasShape A words.length 2 3 ∧ HasShape A' words.length 2 3 ∧
      ∀ (i : ℕ) (hi : i < words.length), ∀ j < 2, ∀ t < 3, |at3 A i j t - at3 A' i j t| ≤
        ((t + 1).choose words[i].els.length : ℝ) * (absWeight words[i] * 1 * 7 ^ (absWeight words[i] - 1)) := by
  have hf : ∀ w ∈ words, ∀ el ∈ w.els, el.length ≤ 2 ∧ ∀ e ∈ el, 0 ≤ e := fun w hw el hel => fits .reals w (List.mem_map_of_mem hw) el hel
  refine C162_reals_stable ⟨Real.exp_add, Real.exp_pos⟩ shape ⟨fun Z hZ => shape.2 Z hZ, by omega, by simp [words], ?_, fun w hw el hel => (hf w hw el hel).1⟩
    (fun w hw el hel => (hf w hw el hel).2) bounded
  intro w hw
  simp only [words, List.mem_cons, List.not_mem_nil, or_false] at hw
  rcases hw with rfl | rfl <;> simp

/-- `MAX(cut=[1, -1])`. -/
noncomputable def maxSieve : Seg ℝ := { cut := [.int 1, .int (-1)], q := [-1, 1] }

/-- EXTENDED mode without weighting, then `MAX(cut=[1, -1])`: the features of the two datasets differ by at most 3. -/
example (T : FloatText ℝ) (hT : T.Lawful) : ∃ Y Y',
    issSieve T Real.exp (words.map .simple) .extended .arctic none (.seg .max maxSieve) X X = .ok Y ∧
    issSieve T Real.exp (words.map .simple) .extended .arctic none (.seg .max maxSieve) X' X' = .ok Y' ∧
    Entrywise (fun x y => |x - y| ≤ (3 : ℕ) * (1 : ℝ)) Y Y' := by
  have hs := conf_simple (k := .arctic) (by simp)
  refine C162_pipeline T hT Real.exp (words.map .simple) .extended ⟨hs.1, hs.2, hs.3, hs.4, hs.5⟩ shape (by omega) (by omega) (by omega)
    (fun s hs el hel => (fits .arctic s hs el hel).1) zero_le_one close (wt := none) rfl rfl .none ?_ ?_
  · intro s hs
    simp only [words, List.map_cons, List.map_nil, List.mem_cons, List.not_mem_nil, or_false, IWord.simple.injEq] at hs
    rcases hs with rfl | rfl <;> simp [absWeight]
  · refine ⟨Or.inr ⟨Or.inl rfl, rfl⟩, fun c hc => ?_⟩
    simp only [maxSieve, List.mem_cons, List.not_mem_nil, or_false] at hc
    rcases hc with rfl | rfl
    · exact ⟨1, rfl, by omega, by omega⟩
    · exact ⟨-1, rfl, by omega, by omega⟩

end StabilityExample

end Fruits
