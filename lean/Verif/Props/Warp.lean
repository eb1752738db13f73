import Verif.Props.General
import Verif.Props.Weightings
import Verif.Props.Text

/-! # C12, C95: time warping

A time warp of a series of length `n` to the length `n'` repeats samples: the new series has at time `t` the value the old one
has at time `φ t`, where `φ` starts at 0, ends at `n - 1` and advances by zero or one in every step. -/

set_option linter.unusedSectionVars false

namespace Fruits
variable {R : Type} [Field R] [LinearOrder R] [IsStrictOrderedRing R] [FloorRing R]

/-- `φ` repeats samples of a series of length `n` to get a series of length `n'`. -/
structure IsWarp (n n' : ℕ) (φ : ℕ → ℕ) : Prop where
  pos : 0 < n
  pos' : 0 < n'
  start : φ 0 = 0
  stop : φ (n' - 1) = n - 1
  step : ∀ t, t + 1 < n' → φ (t + 1) = φ t ∨ φ (t + 1) = φ t + 1

/-- The row `x` with repeated samples. -/
def warpRow (φ : ℕ → ℕ) (n' : ℕ) (x : List R) : List R := tab n' fun t => x.getD (φ t) 0

/-- The dataset in which the samples of series `i` are repeated as `φ i` says (in all dimensions alike). -/
def warp (φ : ℕ → ℕ → ℕ) (n' : ℕ) (X : Data R) : Data R := X.mapIdx fun i Z => Z.map (warpRow (φ i) n')

/-- The same for an array with one row per series. -/
def warp2 (φ : ℕ → ℕ → ℕ) (n' : ℕ) (A : List (List R)) : List (List R) := A.mapIdx fun i x => warpRow (φ i) n' x

/-- `t` is a time at which the warped series moves (or its beginning). -/
def Moves (φ : ℕ → ℕ) (t : ℕ) : Prop := t = 0 ∨ φ (t - 1) < φ t

instance (φ : ℕ → ℕ) (t : ℕ) : Decidable (Moves φ t) := inferInstanceAs (Decidable (_ ∨ _))

namespace IsWarp
variable {n n' : ℕ} {φ : ℕ → ℕ}

theorem mono (h : IsWarp n n' φ) {s t : ℕ} (hst : s ≤ t) (ht : t < n') : φ s ≤ φ t := by
  induction t with
  | zero => rw [Nat.le_zero.1 hst]
  | succ t ih =>
    rcases Nat.lt_or_ge s (t + 1) with hs | hs
    · have := ih (by omega) (by omega)
      rcases h.step t ht with e | e <;> omega
    · rw [show s = t + 1 by omega]

theorem lt (h : IsWarp n n' φ) {t : ℕ} (ht : t < n') : φ t < n := by
  have := h.mono (show t ≤ n' - 1 by omega) (by have := h.pos'; omega)
  rw [h.stop] at this
  have := h.pos
  omega

/-- Every value up to `φ t` is first reached somewhere. -/
theorem first (h : IsWarp n n' φ) {t k : ℕ} (ht : t < n') (hk : k ≤ φ t) : ∃ s ≤ t, φ s = k ∧ Moves φ s := by
  induction t with
  | zero => exact ⟨0, le_rfl, by rw [h.start] at hk ⊢; omega, Or.inl rfl⟩
  | succ t ih =>
    rcases Nat.lt_or_ge (φ t) k with hk' | hk'
    · refine ⟨t + 1, le_rfl, ?_, Or.inr ?_⟩
      · rcases h.step t ht with e | e <;> omega
      · simp only [Nat.add_sub_cancel]; omega
    · obtain ⟨s, h1, h2⟩ := ih (by omega) hk'
      exact ⟨s, by omega, h2⟩

theorem moves_lt (h : IsWarp n n' φ) {s t : ℕ} (hst : s < t) (ht : t < n') (hm : Moves φ t) : φ s < φ t := by
  rcases hm with rfl | hm
  · omega
  · exact lt_of_le_of_lt (h.mono (show s ≤ t - 1 by omega) (by omega)) hm

theorem not_moves (h : IsWarp n n' φ) {t : ℕ} (ht : t < n') (hm : ¬ Moves φ t) : 0 < t ∧ φ t = φ (t - 1) := by
  unfold Moves at hm
  have h0 : t ≠ 0 := fun e => hm (Or.inl e)
  have := h.mono (show t - 1 ≤ t by omega) ht
  have : ¬ φ (t - 1) < φ t := fun e => hm (Or.inr e)
  exact ⟨by omega, by omega⟩

theorem moves_unique (h : IsWarp n n' φ) {s t : ℕ} (hs : s < n') (ht : t < n') (ms : Moves φ s) (mt : Moves φ t) (e : φ s = φ t) : s = t := by
  rcases Nat.lt_trichotomy s t with hh | hh | hh
  · have := h.moves_lt hh ht mt; omega
  · exact hh
  · have := h.moves_lt hh hs ms; omega

end IsWarp

/-- The sum over strictly increasing tuples of a summand that vanishes where the series does not move. -/
theorem sum_incTuples_warp {n n' : ℕ} {φ : ℕ → ℕ} (h : IsWarp n n' φ) {p t : ℕ} (ht : t < n') (F F' : (Fin p → ℕ) → R)
    (h0 : ∀ i ∈ incTuples p (t + 1), (∃ k, ¬ Moves φ (i k)) → F' i = 0)
    (h1 : ∀ i ∈ incTuples p (t + 1), (∀ k, Moves φ (i k)) → F' i = F fun k => φ (i k)) :
    ∑ i ∈ incTuples p (t + 1), F' i = ∑ i ∈ incTuples p (φ t + 1), F i := by
  classical
  rw [← Finset.sum_filter_add_sum_filter_not (incTuples p (t + 1)) (fun i => ∀ k, Moves φ (i k))]
  rw [Finset.sum_eq_zero (s := (incTuples p (t + 1)).filter fun i => ¬ ∀ k, Moves φ (i k)) (by
    intro i hi
    rw [Finset.mem_filter] at hi
    exact h0 i hi.1 (not_forall.1 hi.2)), add_zero]
  refine Finset.sum_bij (fun i _ k => φ (i k)) ?_ ?_ ?_ ?_
  · intro i hi
    rw [Finset.mem_filter, mem_incTuples] at hi
    rw [mem_incTuples]
    refine ⟨fun k => ?_, fun a b hab => ?_⟩
    · have := h.mono (show i k ≤ t by have := hi.1.1 k; omega) ht
      show φ (i k) < φ t + 1
      omega
    · exact h.moves_lt (hi.1.2 hab) (by have := hi.1.1 b; omega) (hi.2 b)
  · intro i hi i' hi' e
    rw [Finset.mem_filter, mem_incTuples] at hi hi'
    funext k
    exact h.moves_unique (by have := hi.1.1 k; omega) (by have := hi'.1.1 k; omega) (hi.2 k) (hi'.2 k) (congrFun e k)
  · intro i hi
    rw [mem_incTuples] at hi
    have : ∀ k, ∃ s ≤ t, φ s = i k ∧ Moves φ s := fun k => h.first ht (by have := hi.1 k; omega)
    choose ψ hψ1 hψ2 hψ3 using this
    refine ⟨ψ, ?_, ?_⟩
    · rw [Finset.mem_filter, mem_incTuples]
      refine ⟨⟨fun k => by have := hψ1 k; omega, fun a b hab => ?_⟩, hψ3⟩
      by_contra hle
      have := h.mono (show ψ b ≤ ψ a by omega) (by have := hψ1 a; omega)
      rw [hψ2, hψ2] at this
      have := hi.2 hab
      omega
    · funext k; exact hψ2 k
  · intro i hi
    rw [Finset.mem_filter] at hi
    exact h1 i hi.1 hi.2

/-- The candidates of a maximum over weakly increasing tuples. -/
theorem weak_cands_warp {n n' : ℕ} {φ : ℕ → ℕ} (h : IsWarp n n' φ) {p t : ℕ} (ht : t < n') (F : (Fin p → ℕ) → R) :
    {v | ∃ i : Fin p → ℕ, WeakTuple t i ∧ v = F fun k => φ (i k)} = {v | ∃ i : Fin p → ℕ, WeakTuple (φ t) i ∧ v = F i} := by
  ext v
  constructor
  · rintro ⟨i, ⟨hi, hb⟩, rfl⟩
    exact ⟨fun k => φ (i k), ⟨fun a b hab => h.mono (hi hab) (lt_of_le_of_lt (hb b) ht), fun k => h.mono (hb k) ht⟩, rfl⟩
  · rintro ⟨i, ⟨hi, hb⟩, rfl⟩
    have : ∀ k, ∃ s ≤ t, φ s = i k ∧ Moves φ s := fun k => h.first ht (hb k)
    choose ψ hψ1 hψ2 hψ3 using this
    refine ⟨ψ, ⟨fun a b hab => ?_, hψ1⟩, ?_⟩
    · by_contra hlt
      have := h.moves_lt (show ψ b < ψ a by omega) (by have := hψ1 a; omega) (hψ3 a)
      rw [hψ2, hψ2] at this
      have := hi hab
      omega
    · congr 1
      funext k
      exact (hψ2 k).symm

theorem penalty_warp (total : Bool) (al g g' : ℕ → R) {φ : ℕ → ℕ} {p t : ℕ} (i : Fin p → ℕ) (hi : ∀ k, i k ≤ t)
    (hg : ∀ s ≤ t, g' s = g (φ s)) : penalty total al g' i t = penalty total al g (fun k => φ (i k)) (φ t) := by
  unfold penalty
  apply Finset.sum_congr rfl
  intro j _
  have h2 : g' (nextIdx i t j) = g (nextIdx (fun k => φ (i k)) (φ t) j) := by
    unfold nextIdx
    split
    · exact hg _ (hi _)
    · exact hg _ le_rfl
  rw [hg _ (hi j), h2]

/-! ### The kernels on one series -/

/-- The letters of the warped series vanish where it does not move, and are the old ones elsewhere. -/
def IncLetters (Z Z' : List (List R)) (n' : ℕ) (φ : ℕ → ℕ) (word : List (List ℤ)) : Prop :=
  ∀ el ∈ word, ∀ t < n', monomial Z' el t = if Moves φ t then monomial Z el (φ t) else 0

theorem getD_mem_of_lt {α : Type} {l : List α} {d : α} {k : ℕ} (h : k < l.length) : l.getD k d ∈ l := by
  rw [List.getD_eq_getElem?_getD, List.getElem?_eq_getElem h]; exact List.getElem_mem h

theorem reals_warp {expf : R → R} (hexp : ExpLike expf) {n n' : ℕ} {φ : ℕ → ℕ} (h : IsWarp n n' φ) {Z Z' : List (List R)}
    (hZ : Rect Z n) (hne : Z ≠ []) (hZ' : Rect Z' n') (hne' : Z' ≠ []) {word : List (List ℤ)}
    (hfit : ∀ el ∈ word, Fits Z el) (hfit' : ∀ el ∈ word, Fits Z' el) (hlet : IncLetters Z Z' n' φ word)
    (alpha : List R) {g g' : List R} (hg : g.length = n) (hg' : g'.length = n') (hgg : ∀ t < n', g'.getD t 0 = g.getD (φ t) 0)
    {ext : ℕ} (he : ext ≤ word.length) (total : Bool) :
    fastSingle expf .reals Z' word alpha g' ext total = (fastSingle expf .reals Z word alpha g ext total).map (warpRow φ n') := by
  have h1 := reals_closed hexp hZ hne hfit alpha hg he total
  have h2 := reals_closed hexp hZ' hne' hfit' alpha hg' he total
  have e : ∀ Z g, fastSingle expf .reals Z word alpha g ext total = (if total then totalReals expf Z word alpha g ext
      else realsSingle expf Z word alpha g ext) := by intro Z g; cases total <;> rfl
  rw [e, e, h1, h2, map_tab]
  apply tab_congr
  intro r hr
  unfold warpRow
  apply tab_congr
  intro t ht
  rw [getD_tab (h.lt ht)]
  apply sum_incTuples_warp h ht
  · rintro i hi ⟨k, hk⟩
    rw [mem_incTuples] at hi
    rw [Finset.prod_eq_zero (Finset.mem_univ k), zero_mul]
    rw [hlet _ (getD_mem_of_lt (by have := k.2; omega)) _ (by have := hi.1 k; omega), if_neg hk]
  · intro i hi hm
    rw [mem_incTuples] at hi
    rw [penalty_warp total _ (g.getD · 0) (g'.getD · 0) i (fun k => by have := hi.1 k; omega) (fun s hs => hgg s (by omega))]
    congr 1
    apply Finset.prod_congr rfl
    intro k _
    rw [hlet _ (getD_mem_of_lt (by have := k.2; omega)) _ (by have := hi.1 k; omega), if_pos (hm k)]

theorem arctic_warp {expf : R → R} {n n' : ℕ} {φ : ℕ → ℕ} (h : IsWarp n n' φ) {Z Z' : List (List R)}
    (hZ : Rect Z n) (hne : Z ≠ []) (hZ' : Rect Z' n') (hne' : Z' ≠ []) {word : List (List ℤ)}
    (hfit : ∀ el ∈ word, Fits Z el) (hfit' : ∀ el ∈ word, Fits Z' el)
    (hlet : ∀ el ∈ word, ∀ t < n', linform Z' el t = linform Z el (φ t))
    (alpha : List R) {g g' : List R} (hg : g.length = n) (hg' : g'.length = n') (hgg : ∀ t < n', g'.getD t 0 = g.getD (φ t) 0)
    {ext : ℕ} (he : ext ≤ word.length) (total : Bool) :
    fastSingle expf .arctic Z' word alpha g' ext total = (fastSingle expf .arctic Z word alpha g ext total).map (warpRow φ n') := by
  obtain ⟨F, h1, hF⟩ := arctic_closed hZ hne hfit alpha hg he total
  obtain ⟨F', h2, hF'⟩ := arctic_closed hZ' hne' hfit' alpha hg' he total
  have e : ∀ Z g, fastSingle expf .arctic Z word alpha g ext total = (if total then totalArctic Z word alpha g ext
      else arcticSingle Z word alpha g ext) := by intro Z g; cases total <;> rfl
  rw [e, e, h1, h2, map_tab]
  apply tab_congr
  intro r hr
  unfold warpRow
  apply tab_congr
  intro t ht
  rw [getD_tab (h.lt ht)]
  refine (hF' r hr t ht).unique ?_
  convert hF r hr (φ t) (h.lt ht) using 1
  unfold arcticCands
  rw [← weak_cands_warp h ht]
  ext v
  refine exists_congr fun i => and_congr_right fun hi => ?_
  rw [penalty_warp total _ (g.getD · 0) (g'.getD · 0) i hi.2 (fun s hs => hgg s (by omega))]
  have : ∑ j : Fin (word.length - ext + r + 1), linform Z' (word.getD j []) (i j) = ∑ j : Fin (word.length - ext + r + 1), linform Z (word.getD j []) (φ (i j)) := by
    apply Finset.sum_congr rfl
    intro k _
    exact hlet _ (getD_mem_of_lt (by have := k.2; omega)) _ (lt_of_le_of_lt (hi.2 k) ht)
  rw [this]

theorem bayesian_warp {expf : R → R} (hexp : ExpLike expf) {n n' : ℕ} {φ : ℕ → ℕ} (h : IsWarp n n' φ) {Z Z' : List (List R)}
    (hZ : Rect Z n) (hne : Z ≠ []) (hZ' : Rect Z' n') (hne' : Z' ≠ []) {word : List (List ℤ)}
    (hfit : ∀ el ∈ word, Fits Z el) (hfit' : ∀ el ∈ word, Fits Z' el) (hpos : NonnegLetters Z word n) (hpos' : NonnegLetters Z' word n')
    (hlet : ∀ el ∈ word, ∀ t < n', monomial Z' el t = monomial Z el (φ t))
    (alpha : List R) {g g' : List R} (hg : g.length = n) (hg' : g'.length = n') (hgg : ∀ t < n', g'.getD t 0 = g.getD (φ t) 0)
    {ext : ℕ} (he : ext ≤ word.length) (total : Bool) :
    fastSingle expf .bayesian Z' word alpha g' ext total = (fastSingle expf .bayesian Z word alpha g ext total).map (warpRow φ n') := by
  obtain ⟨F, h1, hF⟩ := bayesian_closed hexp hZ hne hfit hpos alpha hg he total
  obtain ⟨F', h2, hF'⟩ := bayesian_closed hexp hZ' hne' hfit' hpos' alpha hg' he total
  have e : ∀ Z g, fastSingle expf .bayesian Z word alpha g ext total = (if total then totalBayesian expf Z word alpha g ext
      else bayesianSingle expf Z word alpha g ext) := by intro Z g; cases total <;> rfl
  rw [e, e, h1, h2, map_tab]
  apply tab_congr
  intro r hr
  unfold warpRow
  apply tab_congr
  intro t ht
  rw [getD_tab (h.lt ht)]
  refine (hF' r hr t ht).unique ?_
  convert hF r hr (φ t) (h.lt ht) using 1
  unfold bayesianCands
  rw [← weak_cands_warp h ht]
  ext v
  refine exists_congr fun i => and_congr_right fun hi => ?_
  rw [penalty_warp total _ (g.getD · 0) (g'.getD · 0) i hi.2 (fun s hs => hgg s (by omega))]
  have : ∏ j : Fin (word.length - ext + r + 1), monomial Z' (word.getD j []) (i j) = ∏ j : Fin (word.length - ext + r + 1), monomial Z (word.getD j []) (φ (i j)) := by
    apply Finset.prod_congr rfl
    intro k _
    exact hlet _ (getD_mem_of_lt (by have := k.2; omega)) _ (lt_of_le_of_lt (hi.2 k) ht)
  rw [this]

/-! ### `ISS.transform` -/

/-- No weighting for both datasets, or weightings with the same flag `total` whose lookup is warped like the data. -/
inductive WarpedWeighting (φ : ℕ → ℕ → ℕ) (n n' : ℕ) (X X' : Data R) : Option (Weighting R) → Option (Weighting R) → Prop
  | none : WarpedWeighting φ n n' X X' none none
  | some (g g' : Weighting R) (total : g'.total = g.total) (look : LookupFor g X n)
      (warped : g'.lookup X' = warp2 φ n' (g.lookup X)) : WarpedWeighting φ n n' X X' (some g) (some g')

/-- The ISS has words, they are simple and not empty, and in EXTENDED mode their strings show their extended letters. -/
structure SimpleISS (c : ISSConf R) : Prop where
  semiring : c.semiring ≠ .arcticArgmax
  nonempty : c.words ≠ []
  simple : ∀ w ∈ c.words, ∃ s, w = .simple s
  letters : ∀ w ∈ c.words, w.len ≠ 0
  blocks : c.mode = .extended → ∀ w ∈ c.words, ∃ bs, HasBlocks w bs

theorem depth_le {c : ISSConf R} (hs : SimpleISS c) {i : ℕ} (hi : i < c.words.length) : c.depth i ≤ (c.words[i]).len := by
  cases hmode : c.mode with
  | single => simp only [ISSConf.depth, hmode]; have := hs.letters _ (List.getElem_mem hi); omega
  | extended =>
    obtain ⟨W, w1, w2, w3, w4⟩ := strs_eq (hs.blocks hmode)
    have : c.depth i = planDepth (W.map render) i := by
      simp only [ISSConf.depth, hmode, ISSConf.plan, cachePlan]
      rw [w3]
      simp [List.getD_eq_getElem?_getD, w1, hi]
    rw [this, ← (w4 i hi).2.2]
    exact planDepth_le w2 i

theorem getD_warpRow (φ : ℕ → ℕ) {n' t : ℕ} (x : List R) (ht : t < n') : (warpRow φ n' x).getD t 0 = x.getD (φ t) 0 := getD_tab ht

/-- If the kernels commute with the warping, `ISS.transform` does. -/
theorem transform_warp (expf : R → R) (c : ISSConf R) (hs : SimpleISS c) {X X' : Data R} {n n' : ℕ} {φ : ℕ → ℕ → ℕ} (hlen : X'.length = X.length)
    (hX : ∀ Z ∈ X, ncols Z = n) (hX' : ∀ Z ∈ X', ncols Z = n') (wt' : Option (Weighting R)) (hwt : WarpedWeighting φ n n' X X' c.weighting wt')
    (hφ : ∀ i < X.length, IsWarp n n' (φ i))
    (hk : ∀ s, IWord.simple s ∈ c.words → ∀ (j : ℕ) (hj : j < X.length) (hj' : j < X'.length) (alpha g g' : List R) (total : Bool) (ext : ℕ),
      g.length = n → g'.length = n' → (∀ t < n', g'.getD t 0 = g.getD (φ j t) 0) → ext ≤ s.els.length →
      fastSingle expf c.semiring X'[j] s.els alpha g' ext total =
        (fastSingle expf c.semiring X[j] s.els alpha g ext total).map (warpRow (φ j) n'))
    (hrow : ∀ s, IWord.simple s ∈ c.words → ∀ (j : ℕ) (hj : j < X.length) (alpha g : List R) (total : Bool) (ext : ℕ), g.length = n →
      ext ≤ s.els.length → (fastSingle expf c.semiring X[j] s.els alpha g ext total).length = ext) :
    ({ c with weighting := wt' } : ISSConf R).transform expf X' = (c.transform expf X).map fun A => A.map (warp2 φ n') := by
  have hus : c.Usable := fun h => absurd h hs.semiring
  have hus' : ({ c with weighting := wt' } : ISSConf R).Usable := fun h => absurd h hs.semiring
  rw [transform_eq expf hus hs.nonempty, transform_eq expf hus' hs.nonempty, Except.map, blockRows_flatten, blockRows_flatten, List.map_flatten]
  congr 2
  apply List.ext_getElem
  · simp
  intro i h1 h2
  have hi : i < c.words.length := by simpa using h1
  simp only [List.getElem_mapIdx, List.getElem_map, Nat.zero_add]
  have hdep := depth_le hs hi
  have hmem := List.getElem_mem hi
  generalize hword : c.words[i] = w at hdep hmem
  obtain ⟨s, rfl⟩ := hs.simple w hmem
  unfold ISSConf.wordRows swapAxes
  have hd : ({ c with weighting := wt' } : ISSConf R).depth i = c.depth i := rfl
  have hr : rowsOf c.semiring (IWord.simple s) (c.depth i) = c.depth i := by
    unfold rowsOf
    split
    · rename_i h _ ; exact absurd h hs.semiring
    · rfl
  rw [hd, hr, map_tab]
  apply tab_congr; intro r hr
  have key : ∀ (j : ℕ) (hj : j < X.length) (hj' : j < X'.length) (alpha g g' : List R) (total : Bool), g.length = n → g'.length = n' →
      (∀ t < n', g'.getD t 0 = g.getD (φ j t) 0) → (fastSingle expf c.semiring X'[j] s.els alpha g' (c.depth i) total).getD r [] =
      warpRow (φ j) n' ((fastSingle expf c.semiring X[j] s.els alpha g (c.depth i) total).getD r []) := by
    intro j hj hj' alpha g g' total hg hg' hgg
    have hl := hrow s hmem j hj alpha g total (c.depth i) hg hdep
    rw [hk s hmem j hj hj' alpha g g' total (c.depth i) hg hg' hgg hdep]
    simp only [List.getD_eq_getElem?_getD, List.getElem?_map]
    rw [List.getElem?_eq_getElem (by omega)]
    rfl
  unfold warp2
  generalize c.weighting = wt at hwt ⊢
  apply List.ext_getElem
  · simp [iteratedSums, hlen]
  intro j h3 h4
  have hj : j < X.length := by simpa [iteratedSums] using h4
  have hj' : j < X'.length := by omega
  cases hwt with
  | none =>
    simp only [iteratedSums, List.getElem_map, List.getElem_mapIdx]
    apply key j hj hj'
    · simp [List.getD_eq_getElem?_getD, hj, hX _ (List.getElem_mem hj)]
    · simp [List.getD_eq_getElem?_getD, hj', hX' _ (List.getElem_mem hj')]
    · intro t ht
      have hz : ∀ k s : ℕ, (zeros k : List R).getD s 0 = 0 := by
        intro k s
        simp only [zeros, List.getD_eq_getElem?_getD, List.getElem?_replicate]
        split <;> rfl
      simp [List.getD_eq_getElem?_getD, hj, hj'] at hz ⊢
      rw [hz, hz]
  | some g g' total look warped =>
    simp only [iteratedSums, List.getElem_map, List.getElem_mapIdx, total]
    have hjl : j < (g.lookup X).length := by rw [look.1]; exact hj
    have e : (g'.lookup X').getD j [] = warpRow (φ j) n' ((g.lookup X).getD j []) := by
      rw [warped]
      simp [warp2, List.getD_eq_getElem?_getD, hjl]
    rw [e]
    apply key j hj hj'
    · apply look.2
      exact getD_mem_of_lt hjl
    · simp [warpRow]
    · intro t ht
      exact getD_warpRow _ _ ht

/-! ### Increments -/

theorem HasShape.isData {X : Data R} {m d n : ℕ} (h : HasShape X m d n) : IsData X d n := fun Z hZ => h.2 Z hZ

theorem HasShape.warp {X : Data R} {m d n : ℕ} (h : HasShape X m d n) (φ : ℕ → ℕ → ℕ) (n' : ℕ) : HasShape (warp φ n' X) m d n' := by
  refine ⟨by simp [Fruits.warp, h.1], ?_⟩
  intro Z hZ
  obtain ⟨i, hi, rfl⟩ := List.mem_iff_getElem.1 hZ
  have hi' : i < X.length := by simpa [Fruits.warp] using hi
  simp only [Fruits.warp, List.getElem_mapIdx, List.length_map]
  refine ⟨(h.2 _ (List.getElem_mem hi')).1, ?_⟩
  intro r hr
  obtain ⟨x, _, rfl⟩ := List.mem_map.1 hr
  simp [warpRow]

theorem at3_warp {X : Data R} {m d n : ℕ} (h : HasShape X m d n) (φ : ℕ → ℕ → ℕ) {n' i j t : ℕ} (hi : i < m) (hj : j < d) (ht : t < n') :
    at3 (warp φ n' X) i j t = at3 X i j (φ i t) := by
  have hi' : i < X.length := by rw [h.1]; exact hi
  have hj' : j < X[i].length := by rw [(h.2 _ (List.getElem_mem hi')).1]; exact hj
  have e1 : (warp φ n' X).getD i [] = X[i].map (warpRow (φ i) n') := by
    simp [warp, List.getD_eq_getElem?_getD, hi']
  have e2 : X.getD i [] = X[i] := by simp [List.getD_eq_getElem?_getD, hi']
  have e3 : (X[i].map (warpRow (φ i) n')).getD j [] = warpRow (φ i) n' (X[i].getD j []) := by
    simp [List.getD_eq_getElem?_getD, hj']
  unfold at3
  rw [e1, e2, e3, getD_warpRow _ _ ht]

/-- An extended letter with exponents at least zero, one of them positive, that refers to dimensions below `d`. -/
def PositiveLetter (d : ℕ) (el : List ℤ) : Prop := el.length ≤ d ∧ (∀ e ∈ el, 0 ≤ e) ∧ ∃ e ∈ el, 0 < e

theorem monomial_of_zero {Z : List (List R)} {el : List ℤ} {t d : ℕ} (hel : PositiveLetter d el) (hz : ∀ j < d, entry Z j t = 0) : monomial Z el t = 0 := by
  obtain ⟨h1, _, e, he, hpos⟩ := hel
  obtain ⟨k, hk, rfl⟩ := List.mem_iff_getElem.1 he
  unfold monomial
  refine Finset.prod_eq_zero (Finset.mem_range.2 hk) ?_
  rw [hz k (by omega)]
  apply zero_zpow
  rw [List.getD_eq_getElem?_getD, List.getElem?_eq_getElem hk]
  exact hpos.ne'

theorem monomial_congr {Z Z' : List (List R)} {el : List ℤ} {t t' d : ℕ} (hel : el.length ≤ d) (h : ∀ j < d, entry Z' j t' = entry Z j t) :
    monomial Z' el t' = monomial Z el t := by
  unfold monomial
  apply Finset.prod_congr rfl
  intro j hj
  rw [h j (by have := Finset.mem_range.1 hj; omega)]

theorem linform_congr {Z Z' : List (List R)} {el : List ℤ} {t t' d : ℕ} (hel : el.length ≤ d) (h : ∀ j < d, entry Z' j t' = entry Z j t) :
    linform Z' el t' = linform Z el t := by
  unfold linform
  apply Finset.sum_congr rfl
  intro j hj
  rw [h j (by have := Finset.mem_range.1 hj; omega)]

theorem entry_at3 (X : Data R) {i : ℕ} (hi : i < X.length) (j t : ℕ) : entry X[i] j t = at3 X i j t := by
  unfold entry at3
  simp [List.getD_eq_getElem?_getD, hi]

/-- The increments of the warped data are those of the data where it moves, and zero elsewhere. -/
theorem inc_warp (T : FloatText R) [NpMath R] {X : Data R} {m d n n' : ℕ} (hX : HasShape X m d n) {φ : ℕ → ℕ → ℕ}
    (hφ : ∀ i < m, IsWarp n n' (φ i)) (zp : Bool) :
    ∃ Y Y', (Prep.inc ⟨.int 1, 1, zp⟩).transform T X = .ok Y ∧ (Prep.inc ⟨.int 1, 1, zp⟩).transform T (warp φ n' X) = .ok Y' ∧
      HasShape Y m d n ∧ HasShape Y' m d n' ∧
      ∀ i < m, ∀ j < d, ∀ t < n', at3 Y' i j t = if Moves (φ i) t then at3 Y i j (φ i t) else 0 := by
  obtain ⟨Y, h1, h2, h3⟩ := C39_increments T X hX 1 1 le_rfl zp
  obtain ⟨Y', h1', h2', h3'⟩ := C39_increments T (warp φ n' X) (hX.warp φ n') 1 1 le_rfl zp
  refine ⟨Y, Y', h1, h1', h2, h2', ?_⟩
  intro i hi j hj t ht
  have hw := hφ i hi
  rw [h3' i hi j hj t ht]
  simp only [Function.iterate_one, incStep]
  rcases Nat.eq_zero_or_pos t with rfl | h0
  · rw [if_pos (by omega), if_pos (show Moves (φ i) 0 from Or.inl rfl), h3 i hi j hj _ (hw.lt ht), at3_warp hX φ hi hj ht]
    simp only [Function.iterate_one, incStep, hw.start]
    simp
  · rw [if_neg (by omega), at3_warp hX φ hi hj ht, at3_warp hX φ hi hj (by omega)]
    by_cases hm : Moves (φ i) t
    · rw [if_pos hm, h3 i hi j hj _ (hw.lt ht)]
      simp only [Function.iterate_one, incStep]
      have hlt : φ i (t - 1) < φ i t := hw.moves_lt (by omega) ht hm
      have hst := hw.step (t - 1) (by omega)
      rw [show t - 1 + 1 = t by omega] at hst
      rw [if_neg (by omega)]
      have : φ i (t - 1) = φ i t - 1 := by omega
      rw [this]
    · rw [if_neg hm, ← (hw.not_moves ht hm).2, sub_self]

theorem warp_ne {X : Data R} {m d n : ℕ} (h : HasShape X m d n) (hd : 0 < d) {Z : List (List R)} (hZ : Z ∈ X) : Z ≠ [] := by
  intro e
  have := (h.2 Z hZ).1
  rw [e] at this
  simp at this
  omega

/-- **C12**, iterated sums: repeating samples of the series repeats samples of the Reals iterated sums of their increments in
the same way (SINGLE and EXTENDED mode, with or without zero padding of the increments and, if the lookup of the weighting is
warped as well, with weighting). -/
theorem C12_iterated_sums (T : FloatText R) [NpMath R] {expf : R → R} (hexp : ExpLike expf) {X : Data R} {m d n n' : ℕ} (hX : HasShape X m d n)
    (hd : 0 < d) {φ : ℕ → ℕ → ℕ} (hφ : ∀ i < m, IsWarp n n' (φ i)) (zp : Bool) (c : ISSConf R) (hs : SimpleISS c) (hr : c.semiring = .reals)
    (hw : ∀ s, IWord.simple s ∈ c.words → ∀ el ∈ s.els, PositiveLetter d el) :
    ∃ Y Y', (Prep.inc ⟨.int 1, 1, zp⟩).transform T X = .ok Y ∧ (Prep.inc ⟨.int 1, 1, zp⟩).transform T (warp φ n' X) = .ok Y' ∧
      ∀ wt', WarpedWeighting φ n n' Y Y' c.weighting wt' →
        ({ c with weighting := wt' } : ISSConf R).transform expf Y' = (c.transform expf Y).map fun A => A.map (warp2 φ n') := by
  obtain ⟨Y, Y', h1, h1', h2, h2', h3⟩ := inc_warp T hX hφ zp
  refine ⟨Y, Y', h1, h1', ?_⟩
  intro wt' hwt
  have hb : ∀ {j : ℕ}, j < Y.length → j < m := fun h => by rw [h2.1] at h; exact h
  refine transform_warp expf c hs (by rw [h2.1, h2'.1]) (fun Z hZ => ncols_eq (h2.2 Z hZ).2 (warp_ne h2 hd hZ))
    (fun Z hZ => ncols_eq (h2'.2 Z hZ).2 (warp_ne h2' hd hZ)) wt' hwt (fun i hi => hφ i (hb hi)) ?_ ?_
  · intro s hsm j hj hj' alpha g g' total ext hg hg' hgg he
    rw [hr]
    refine reals_warp hexp (hφ j (hb hj)) (h2.2 _ (List.getElem_mem hj)).2 (warp_ne h2 hd (List.getElem_mem hj))
      (h2'.2 _ (List.getElem_mem hj')).2 (warp_ne h2' hd (List.getElem_mem hj')) ?_ ?_ ?_ alpha hg hg' hgg he total
    · intro el hel; unfold Fits; rw [(h2.2 _ (List.getElem_mem hj)).1]; exact (hw s hsm el hel).1
    · intro el hel; unfold Fits; rw [(h2'.2 _ (List.getElem_mem hj')).1]; exact (hw s hsm el hel).1
    · intro el hel t ht
      by_cases hmv : Moves (φ j) t
      · rw [if_pos hmv]
        refine monomial_congr (hw s hsm el hel).1 fun k hk => ?_
        rw [entry_at3 Y hj, entry_at3 Y' hj', h3 j (hb hj) k hk t ht, if_pos hmv]
      · rw [if_neg hmv]
        refine monomial_of_zero (hw s hsm el hel) fun k hk => ?_
        rw [entry_at3 Y' hj', h3 j (hb hj) k hk t ht, if_neg hmv]
  · intro s hsm j hj alpha g total ext hg he
    rw [hr]
    have e : fastSingle expf .reals Y[j] s.els alpha g ext total = (if total then totalReals expf Y[j] s.els alpha g ext
      else realsSingle expf Y[j] s.els alpha g ext) := by cases total <;> rfl
    rw [e, reals_closed hexp (h2.2 _ (List.getElem_mem hj)).2 (warp_ne h2 hd (List.getElem_mem hj))
      (fun el hel => by unfold Fits; rw [(h2.2 _ (List.getElem_mem hj)).1]; exact (hw s hsm el hel).1) alpha hg he total, tab_length]

/-- **C95.** Repeating samples of the series repeats samples of their Arctic iterated sums in the same way, without taking
increments; so it is for the Bayesian iterated sums of non-negative data. -/
theorem C95_iterated_sums {expf : R → R} (hexp : ExpLike expf) {X : Data R} {m d n n' : ℕ} (hX : HasShape X m d n)
    (hd : 0 < d) {φ : ℕ → ℕ → ℕ} (hφ : ∀ i < m, IsWarp n n' (φ i)) (c : ISSConf R) (hs : SimpleISS c)
    (hr : c.semiring = .arctic ∨ c.semiring = .bayesian ∧ Nonnegative X)
    (hw : ∀ s, IWord.simple s ∈ c.words → ∀ el ∈ s.els, el.length ≤ d)
    (wt' : Option (Weighting R)) (hwt : WarpedWeighting φ n n' X (warp φ n' X) c.weighting wt') :
    ({ c with weighting := wt' } : ISSConf R).transform expf (warp φ n' X) = (c.transform expf X).map fun A => A.map (warp2 φ n') := by
  have hb : ∀ {j : ℕ}, j < X.length → j < m := fun h => by rw [hX.1] at h; exact h
  have hX' := hX.warp φ n'
  have hent : ∀ (j : ℕ) (hj : j < X.length) (hj' : j < (warp φ n' X).length), ∀ k < d, ∀ t < n',
      entry (warp φ n' X)[j] k t = entry X[j] k (φ j t) := by
    intro j hj hj' k hk t ht
    rw [entry_at3 X hj, entry_at3 _ hj', at3_warp hX φ (hb hj) hk ht]
  have hnn : Nonnegative X → ∀ s, IWord.simple s ∈ c.words → ∀ (j : ℕ) (hj : j < X.length) (hj' : j < (warp φ n' X).length),
      NonnegLetters X[j] s.els n ∧ NonnegLetters (warp φ n' X)[j] s.els n' := by
    intro hnn s hsm j hj hj'
    have hm : ∀ el t, 0 ≤ monomial X[j] el t := fun el t => Finset.prod_nonneg fun k _ => zpow_nonneg (hnn _ (List.getElem_mem hj) k t) _
    refine ⟨fun k hk t ht => hm _ _, fun k hk t ht => ?_⟩
    rw [monomial_congr (hw s hsm _ (getD_mem_of_lt hk)) fun k hk => hent j hj hj' k hk t ht]
    exact hm _ _
  refine transform_warp expf c hs (by rw [hX.1, hX'.1]) (fun Z hZ => ncols_eq (hX.2 Z hZ).2 (warp_ne hX hd hZ))
    (fun Z hZ => ncols_eq (hX'.2 Z hZ).2 (warp_ne hX' hd hZ)) wt' hwt (fun i hi => hφ i (hb hi)) ?_ ?_
  · intro s hsm j hj hj' alpha g g' total ext hg hg' hgg he
    have f1 : ∀ el ∈ s.els, Fits X[j] el := by
      intro el hel; unfold Fits; rw [(hX.2 _ (List.getElem_mem hj)).1]; exact hw s hsm el hel
    have f2 : ∀ el ∈ s.els, Fits (warp φ n' X)[j] el := by
      intro el hel; unfold Fits; rw [(hX'.2 _ (List.getElem_mem hj')).1]; exact hw s hsm el hel
    rcases hr with hr | ⟨hr, hpos⟩
    · rw [hr]
      exact arctic_warp (hφ j (hb hj)) (hX.2 _ (List.getElem_mem hj)).2 (warp_ne hX hd (List.getElem_mem hj))
        (hX'.2 _ (List.getElem_mem hj')).2 (warp_ne hX' hd (List.getElem_mem hj')) f1 f2
        (fun el hel t ht => linform_congr (hw s hsm el hel) fun k hk => hent j hj hj' k hk t ht) alpha hg hg' hgg he total
    · rw [hr]
      exact bayesian_warp hexp (hφ j (hb hj)) (hX.2 _ (List.getElem_mem hj)).2 (warp_ne hX hd (List.getElem_mem hj))
        (hX'.2 _ (List.getElem_mem hj')).2 (warp_ne hX' hd (List.getElem_mem hj')) f1 f2 (hnn hpos s hsm j hj hj').1 (hnn hpos s hsm j hj hj').2
        (fun el hel t ht => monomial_congr (hw s hsm el hel) fun k hk => hent j hj hj' k hk t ht) alpha hg hg' hgg he total
  · intro s hsm j hj alpha g total ext hg he
    have hj' : j < (warp φ n' X).length := by rw [hX'.1, ← hX.1]; exact hj
    have f1 : ∀ el ∈ s.els, Fits X[j] el := by
      intro el hel; unfold Fits; rw [(hX.2 _ (List.getElem_mem hj)).1]; exact hw s hsm el hel
    rcases hr with hr | ⟨hr, hpos⟩
    · rw [hr]
      have e : fastSingle expf .arctic X[j] s.els alpha g ext total = (if total then totalArctic X[j] s.els alpha g ext
        else arcticSingle X[j] s.els alpha g ext) := by cases total <;> rfl
      obtain ⟨F, h, _⟩ := arctic_closed (hX.2 _ (List.getElem_mem hj)).2 (warp_ne hX hd (List.getElem_mem hj)) f1 alpha hg he total
      rw [e, h, tab_length]
    · rw [hr]
      have e : fastSingle expf .bayesian X[j] s.els alpha g ext total = (if total then totalBayesian expf X[j] s.els alpha g ext
        else bayesianSingle expf X[j] s.els alpha g ext) := by cases total <;> rfl
      obtain ⟨F, h, _⟩ := bayesian_closed hexp (hX.2 _ (List.getElem_mem hj)).2 (warp_ne hX hd (List.getElem_mem hj)) f1
        (hnn hpos s hsm j hj hj').1 alpha hg he total
      rw [e, h, tab_length]

/-! ### END -/

theorem variation_warp (nm : Norm) {n n' : ℕ} {φ : ℕ → ℕ} (h : IsWarp n n' φ) (x x' : ℕ → R) (hx : ∀ t < n', x' t = x (φ t)) {t : ℕ} (ht : t < n') :
    variation nm x' t = variation nm x (φ t) := by
  induction t with
  | zero => rw [h.start]; rfl
  | succ t ih =>
    unfold variation at ih ⊢
    rw [Finset.sum_range_succ, ih (by omega), hx _ ht, hx t (by omega)]
    rcases h.step t ht with e | e
    · rw [e, sub_self]
      have : normTerm nm (0 : R) = 0 := by cases nm <;> simp [normTerm]
      rw [this, add_zero]
    · rw [e, Finset.sum_range_succ]

/-- The rows of the weightings `L1` and `L2` (of the raw data, which the cache holds) are warped like the data. -/
theorem C12_weighting (T : FloatText R) {X : Data R} {m d n n' : ℕ} (hX : HasShape X m d n) (hm : 0 < m) (hd : 0 < d) {φ : ℕ → ℕ → ℕ}
    (hφ : ∀ i < m, IsWarp n n' (φ i)) (nm : Norm) (rel : Bool) (scale : R) (Y Y' : Data R) :
    ∃ L, (WeightingKind.norm nm false rel none scale).lookup T X Y = .ok L ∧ L.length = m ∧ (∀ r ∈ L, r.length = n) ∧
      (WeightingKind.norm nm false rel none scale).lookup T (warp φ n' X) Y' = .ok (warp2 φ n' L) := by
  have hn : 0 < n := (hφ 0 hm).pos
  have hn' : 0 < n' := (hφ 0 hm).pos'
  -- the lookup as a function of the variation
  have key : ∀ (C : Data R) (l : ℕ), HasShape C m d l → 0 < l → ∀ Y : Data R,
      (WeightingKind.norm nm false rel none scale).lookup T C Y = .ok (tab m fun i => tab l fun t =>
        nrmVal ((fun t => if rel then variation nm (at3 C i 0) t / (variation nm (at3 C i 0) (l - 1) + 1 / 100000) else variation nm (at3 C i 0) t) 0)
          ((fun t => if rel then variation nm (at3 C i 0) t / (variation nm (at3 C i 0) (l - 1) + 1 / 100000) else variation nm (at3 C i 0) t) (l - 1))
          ((fun t => if rel then variation nm (at3 C i 0) t / (variation nm (at3 C i 0) (l - 1) + 1 / 100000) else variation nm (at3 C i 0) t) t) * scale) := by
    intro C l hC hl Y
    have hf2 : ∀ i < m, ∀ s t, s ≤ t → t < l →
        (fun t => if rel then variation nm (at3 C i 0) t / (variation nm (at3 C i 0) (l - 1) + 1 / 100000) else variation nm (at3 C i 0) t) s ≤
        (fun t => if rel then variation nm (at3 C i 0) t / (variation nm (at3 C i 0) (l - 1) + 1 / 100000) else variation nm (at3 C i 0) t) t := by
      intro i _ s t hst _
      have := variation_mono nm (at3 C i 0) hst
      cases rel with
      | false => exact this
      | true =>
        simp only [if_true]
        apply div_le_div_of_nonneg_right this
        have := variation_nonneg nm (at3 C i 0) (l - 1)
        positivity
    rw [← rescale_mono scale hl (fun i t => if rel then variation nm (at3 C i 0) t / (variation nm (at3 C i 0) (l - 1) + 1 / 100000)
      else variation nm (at3 C i 0) t) hf2]
    simp only [WeightingKind.lookup, normLookup, Bool.false_eq_true, if_false, issSums_eq T C nm hC hd, ok_bind, applyTransform]
    congr 1
    cases rel with
    | false => rfl
    | true =>
      simp only [if_true, relativeRows, map_tab, tab_length]
      apply tab_congr
      intro i _
      rw [getD_tab (show l - 1 < l by omega)]
  refine ⟨_, key X n hX hn Y, by simp, ?_, ?_⟩
  · intro r hr
    obtain ⟨i, _, rfl⟩ := mem_tab.1 hr
    simp
  · rw [key (warp φ n' X) n' (hX.warp φ n') hn' Y']
    congr 1
    apply List.ext_getElem
    · simp [warp2]
    intro i h1 h2
    have hi : i < m := by simpa using h1
    have hw := hφ i hi
    have hv : ∀ t < n', variation nm (at3 (warp φ n' X) i 0) t = variation nm (at3 X i 0) (φ i t) := fun t ht =>
      variation_warp nm hw _ _ (fun s hs => at3_warp hX φ hi hd hs) ht
    simp only [warp2, List.getElem_mapIdx, tab_getElem]
    unfold warpRow
    apply tab_congr
    intro t ht
    rw [getD_tab (hw.lt ht)]
    simp only [hv t ht, hv 0 hn', hv (n' - 1) (by omega), hw.start, hw.stop]

end Fruits
