import Verif.Props.Warp2
import Verif.Props.General

/-! ## C159: words with arbitrary letters and repeated samples -/

set_option linter.unusedSectionVars false

namespace Fruits
variable {R : Type} [Field R] [LinearOrder R] [IsStrictOrderedRing R] [FloorRing R]

/-- A letter that looks at one time point at a time: on series with `d` dimensions its value at time `t` is a fixed function `f` of
the `d` values of the series at time `t`. -/
def IsPointwise (d : ℕ) (l : BoundLetter R) (f : (Fin d → R) → R) : Prop :=
  ∀ (n : ℕ) (Z : List (List R)), Z.length = d → Rect Z n → l Z = tab n fun t => f fun j => entry Z j t

/-- The words of the ISS are general words, not empty, and in EXTENDED mode their strings show their extended letters. -/
structure GeneralISS (c : ISSConf R) : Prop where
  semiring : c.semiring ≠ .arcticArgmax
  nonempty : c.words ≠ []
  general : ∀ w ∈ c.words, ∃ s, w = .general s
  letters : ∀ w ∈ c.words, w.len ≠ 0
  blocks : c.mode = .extended → ∀ w ∈ c.words, ∃ bs, HasBlocks w bs

theorem depth_le_general {c : ISSConf R} (hs : GeneralISS c) {i : ℕ} (hi : i < c.words.length) : c.depth i ≤ (c.words[i]).len := by
  cases hmode : c.mode with
  | single => simp only [ISSConf.depth, hmode]; have := hs.letters _ (List.getElem_mem hi); omega
  | extended =>
    obtain ⟨W, w1, w2, w3, w4⟩ := strs_eq (hs.blocks hmode)
    have : c.depth i = planDepth (W.map render) i := by
      simp only [ISSConf.depth, hmode, ISSConf.plan, cachePlan]
      rw [w3]
      simp [List.getD_eq_getElem?_getD, w1, hi]
    rw [this, ← (w4 i hi).2.2]
    exact planDepth_le w2 i

/-- If the kernels commute with the warping, `ISS.transform` does. -/
theorem transform_warp_general (expf : R → R) (c : ISSConf R) (hs : GeneralISS c) {X X' : Data R} {n' : ℕ} {φ : ℕ → ℕ → ℕ} (hlen : X'.length = X.length)
    (wt' : Option (Weighting R))
    (hk : ∀ s, IWord.general s ∈ c.words → ∀ (j : ℕ) (hj : j < X.length) (hj' : j < X'.length) (ext : ℕ), ext ≤ s.els.length →
      slowSingle c.semiring X'[j] (s.els.map ELetter.bound) ext =
        (slowSingle c.semiring X[j] (s.els.map ELetter.bound) ext).map (warpRow (φ j) n'))
    (hrow : ∀ s, IWord.general s ∈ c.words → ∀ (j : ℕ) (hj : j < X.length) (ext : ℕ),
      ext ≤ s.els.length → (slowSingle c.semiring X[j] (s.els.map ELetter.bound) ext).length = ext) :
    ({ c with weighting := wt' } : ISSConf R).transform expf X' = (c.transform expf X).map fun A => A.map (warp2 φ n') := by
  have hus : c.Usable := fun h => absurd h hs.semiring
  have hus' : ({ c with weighting := wt' } : ISSConf R).Usable := fun h => absurd h hs.semiring
  rw [transform_eq expf hus hs.nonempty, transform_eq expf hus' hs.nonempty, Except.map, blockRows_flatten, blockRows_flatten, List.map_flatten]
  congr 2
  apply List.ext_getElem
  · simp
  intro i h1 h2
  have hi : i < c.words.length := by simpa using h1
  simp only [List.getElem_mapIdx, List.getElem_map, Nat.zero_add]
  have hdep := depth_le_general hs hi
  have hmem := List.getElem_mem hi
  generalize hword : c.words[i] = w at hdep hmem
  obtain ⟨s, rfl⟩ := hs.general w hmem
  unfold ISSConf.wordRows swapAxes
  have hd : ({ c with weighting := wt' } : ISSConf R).depth i = c.depth i := rfl
  have hr : rowsOf c.semiring (IWord.general s) (c.depth i) = c.depth i := by
    unfold rowsOf
    split
    · rename_i h _ ; exact absurd h hs.semiring
    · rfl
  rw [hd, hr, map_tab]
  apply tab_congr; intro r hr
  unfold warp2
  apply List.ext_getElem
  · simp [iteratedSums, hlen]
  intro j h3 h4
  have hj : j < X.length := by simpa [iteratedSums] using h4
  have hj' : j < X'.length := by omega
  simp only [iteratedSums, List.getElem_map, List.getElem_mapIdx]
  have hl := hrow s hmem j hj (c.depth i) hdep
  rw [hk s hmem j hj hj' (c.depth i) hdep]
  simp only [List.getD_eq_getElem?_getD, List.getElem?_map]
  rw [List.getElem?_eq_getElem (by omega)]
  rfl

theorem slowSingle_length {Z : List (List R)} {n : ℕ} (hZ : Rect Z n) (hne : Z ≠ []) {word : List (List (BoundLetter R))} (hfit : LettersFit Z n word)
    {ext : ℕ} (he : ext ≤ word.length) {k : SemiringKind} (hk : k = .reals ∨ k = .arctic) : (slowSingle k Z word ext).length = ext := by
  rcases hk with rfl | rfl
  · simp only [slowSingle]; rw [genericReals_eq hZ hne hfit he, tab_length]
  · simp only [slowSingle]; rw [genericArctic_eq hZ hne hfit he, tab_length]

theorem slowReals_warp {n n' : ℕ} {φ : ℕ → ℕ} (h : IsWarp n n' φ) {Z Z' : List (List R)}
    (hZ : Rect Z n) (hne : Z ≠ []) (hZ' : Rect Z' n') (hne' : Z' ≠ []) {word : List (List (BoundLetter R))}
    (hfit : LettersFit Z n word) (hfit' : LettersFit Z' n' word)
    (hlet : ∀ el ∈ word, ∀ t < n', letterProd Z' el t = if Moves φ t then letterProd Z el (φ t) else 0)
    {ext : ℕ} (he : ext ≤ word.length) :
    slowSingle .reals Z' word ext = (slowSingle .reals Z word ext).map (warpRow φ n') := by
  simp only [slowSingle]
  rw [genericReals_eq hZ hne hfit he, genericReals_eq hZ' hne' hfit' he, map_tab]
  apply tab_congr; intro r hr
  unfold warpRow
  apply tab_congr; intro t ht
  rw [getD_tab (h.lt ht)]
  unfold incSum prods
  apply sum_incTuples_warp h ht
  · rintro i hi ⟨k, hm⟩
    rw [mem_incTuples] at hi
    refine Finset.prod_eq_zero (Finset.mem_univ k) ?_
    rw [hlet _ (getD_mem_of_lt (by have := k.2; omega)) _ (by have := hi.1 k; omega), if_neg hm]
  · intro i hi hm
    rw [mem_incTuples] at hi
    apply Finset.prod_congr rfl
    intro k _
    rw [hlet _ (getD_mem_of_lt (by have := k.2; omega)) _ (by have := hi.1 k; omega), if_pos (hm k)]

theorem slowArctic_warp {n n' : ℕ} {φ : ℕ → ℕ} (h : IsWarp n n' φ) {Z Z' : List (List R)}
    (hZ : Rect Z n) (hne : Z ≠ []) (hZ' : Rect Z' n') (hne' : Z' ≠ []) {word : List (List (BoundLetter R))}
    (hfit : LettersFit Z n word) (hfit' : LettersFit Z' n' word)
    (hlet : ∀ el ∈ word, ∀ t < n', letterSum Z' el t = letterSum Z el (φ t)) {ext : ℕ} (he : ext ≤ word.length) :
    slowSingle .arctic Z' word ext = (slowSingle .arctic Z word ext).map (warpRow φ n') := by
  simp only [slowSingle]
  rw [genericArctic_eq hZ hne hfit he, genericArctic_eq hZ' hne' hfit' he, map_tab]
  apply tab_congr; intro r hr
  unfold warpRow
  apply tab_congr; intro t ht
  rw [getD_tab (h.lt ht)]
  have h1 := chainMax_isGreatest (· + ·) 0 (sums Z word) (word.length - ext + r + 1) n
      (fun _ _ _ _ => fun _ _ h => by simpa using h) (φ t) (h.lt ht)
  have h2 := chainMax_isGreatest (· + ·) 0 (sums Z' word) (word.length - ext + r + 1) n'
      (fun _ _ _ _ => fun _ _ h => by simpa using h) t ht
  refine h2.unique ?_
  convert h1 using 1
  rw [← weak_cands_warp h ht]
  ext v
  refine exists_congr fun i => and_congr_right fun hi => ?_
  rw [chainVal_add, chainVal_add, zero_add, zero_add]
  have : ∑ j : Fin (word.length - ext + r + 1), sums Z' word j (i j) = ∑ j : Fin (word.length - ext + r + 1), sums Z word j (φ (i j)) := by
    apply Finset.sum_congr rfl
    intro k _
    exact hlet _ (getD_mem_of_lt (by have := k.2; omega)) _ (lt_of_le_of_lt (hi.2 k) ht)
  rw [this]

/-- All letters of the words look at one time point at a time. -/
def PointwiseWords (d : ℕ) (words : List (IWord R)) : Prop :=
  ∀ s, IWord.general s ∈ words → ∀ el ∈ s.els, ∀ l ∈ el.bound, ∃ f, IsPointwise d l f

/-- … and every extended letter has a letter that is zero where the series is zero. -/
def VanishingWords (d : ℕ) (words : List (IWord R)) : Prop :=
  ∀ s, IWord.general s ∈ words → ∀ el ∈ s.els, ∃ l ∈ el.bound, ∃ f, IsPointwise d l f ∧ f (fun _ => 0) = 0

theorem IsPointwise.getD {d n : ℕ} {l : BoundLetter R} {f : (Fin d → R) → R} (h : IsPointwise d l f) {Z : List (List R)} (hl : Z.length = d)
    (hZ : Rect Z n) {t : ℕ} (ht : t < n) : (l Z).getD t 0 = f fun j => entry Z j t := by
  rw [h n Z hl hZ, getD_tab ht]

theorem letterSum_congr {d n n' : ℕ} {el : List (BoundLetter R)} (hp : ∀ l ∈ el, ∃ f, IsPointwise d l f) {Z Z' : List (List R)}
    (hl : Z.length = d) (hl' : Z'.length = d) (hZ : Rect Z n) (hZ' : Rect Z' n') {t t' : ℕ} (ht : t < n) (ht' : t' < n')
    (h : ∀ j < d, entry Z' j t' = entry Z j t) : letterSum Z' el t' = letterSum Z el t ∧ letterProd Z' el t' = letterProd Z el t := by
  have : (el.map fun l => (l Z').getD t' 0) = el.map fun l => (l Z).getD t 0 := by
    apply List.map_congr_left
    intro l hle
    obtain ⟨f, hf⟩ := hp l hle
    rw [hf.getD hl hZ ht, hf.getD hl' hZ' ht']
    congr 1
    funext j
    exact h j j.2
  unfold letterSum letterProd
  rw [this]
  exact ⟨rfl, rfl⟩

theorem lettersFit_of {d n : ℕ} {words : List (IWord R)} (hp : PointwiseWords d words) {s : GWord R} (hs : IWord.general s ∈ words) {Z : List (List R)}
    (hl : Z.length = d) (hZ : Rect Z n) : LettersFit Z n (s.els.map ELetter.bound) := by
  intro el hel l hle
  obtain ⟨e, he, rfl⟩ := List.mem_map.1 hel
  obtain ⟨f, hf⟩ := hp s hs e he l hle
  rw [hf n Z hl hZ, tab_length]

/-- **C159**, Arctic: repeating samples of the series repeats samples of the Arctic iterated sums of words with arbitrary letters that look at
one time point at a time, in the same way, in both modes; a weighting does not matter. -/
theorem C159_arctic (expf : R → R) {X : Data R} {m d n n' : ℕ} (hX : HasShape X m d n)
    (hd : 0 < d) {φ : ℕ → ℕ → ℕ} (hφ : ∀ i < m, IsWarp n n' (φ i)) (c : ISSConf R) (hs : GeneralISS c)
    (hr : c.semiring = .arctic) (hp : PointwiseWords d c.words) (wt' : Option (Weighting R)) :
    ({ c with weighting := wt' } : ISSConf R).transform expf (warp φ n' X) = (c.transform expf X).map fun A => A.map (warp2 φ n') := by
  have hb : ∀ {j : ℕ}, j < X.length → j < m := fun h => by rw [hX.1] at h; exact h
  have hX' := hX.warp φ n'
  have hent : ∀ (j : ℕ) (hj : j < X.length) (hj' : j < (warp φ n' X).length), ∀ k < d, ∀ t < n',
      entry (warp φ n' X)[j] k t = entry X[j] k (φ j t) := by
    intro j hj hj' k hk t ht
    rw [entry_at3 X hj, entry_at3 _ hj', at3_warp hX φ (hb hj) hk ht]
  refine transform_warp_general expf c hs (by rw [hX.1, hX'.1]) wt' ?_ ?_
  · intro s hsm j hj hj' ext he
    rw [hr]
    have l1 := (hX.2 _ (List.getElem_mem hj))
    have l2 := (hX'.2 _ (List.getElem_mem hj'))
    refine slowArctic_warp (hφ j (hb hj)) l1.2 (warp_ne hX hd (List.getElem_mem hj)) l2.2 (warp_ne hX' hd (List.getElem_mem hj'))
      (lettersFit_of hp hsm l1.1 l1.2) (lettersFit_of hp hsm l2.1 l2.2) ?_ (by simpa using he)
    intro el hel t ht
    obtain ⟨e, he', rfl⟩ := List.mem_map.1 hel
    exact (letterSum_congr (hp s hsm e he') l1.1 l2.1 l1.2 l2.2 ((hφ j (hb hj)).lt ht) ht fun k hk => hent j hj hj' k hk t ht).1
  · intro s hsm j hj ext he
    have l1 := (hX.2 _ (List.getElem_mem hj))
    exact slowSingle_length l1.2 (warp_ne hX hd (List.getElem_mem hj)) (lettersFit_of hp hsm l1.1 l1.2) (by simpa using he) (Or.inr hr)

/-- **C159**, Reals: repeating samples of the series repeats samples of the Reals iterated sums of its increments, for words with arbitrary letters that
look at one time point at a time, at least one letter of each extended letter being zero at zero. -/
theorem C159_reals (T : FloatText R) [NpMath R] (expf : R → R) {X : Data R} {m d n n' : ℕ} (hX : HasShape X m d n)
    (hd : 0 < d) {φ : ℕ → ℕ → ℕ} (hφ : ∀ i < m, IsWarp n n' (φ i)) (zp : Bool) (c : ISSConf R) (hs : GeneralISS c) (hr : c.semiring = .reals)
    (hp : PointwiseWords d c.words) (hv : VanishingWords d c.words) (wt' : Option (Weighting R)) :
    ∃ Y Y', (Prep.inc ⟨.int 1, 1, zp⟩).transform T X = .ok Y ∧ (Prep.inc ⟨.int 1, 1, zp⟩).transform T (warp φ n' X) = .ok Y' ∧
        ({ c with weighting := wt' } : ISSConf R).transform expf Y' = (c.transform expf Y).map fun A => A.map (warp2 φ n') := by
  obtain ⟨Y, Y', h1, h1', h2, h2', h3⟩ := inc_warp T hX hφ zp
  refine ⟨Y, Y', h1, h1', ?_⟩
  have hb : ∀ {j : ℕ}, j < Y.length → j < m := fun h => by rw [h2.1] at h; exact h
  refine transform_warp_general expf c hs (by rw [h2.1, h2'.1]) wt' ?_ ?_
  · intro s hsm j hj hj' ext he
    rw [hr]
    have l1 := (h2.2 _ (List.getElem_mem hj))
    have l2 := (h2'.2 _ (List.getElem_mem hj'))
    refine slowReals_warp (hφ j (hb hj)) l1.2 (warp_ne h2 hd (List.getElem_mem hj)) l2.2 (warp_ne h2' hd (List.getElem_mem hj'))
      (lettersFit_of hp hsm l1.1 l1.2) (lettersFit_of hp hsm l2.1 l2.2) ?_ (by simpa using he)
    intro el hel t ht
    obtain ⟨e, he', rfl⟩ := List.mem_map.1 hel
    by_cases hmv : Moves (φ j) t
    · rw [if_pos hmv]
      refine (letterSum_congr (hp s hsm e he') l1.1 l2.1 l1.2 l2.2 ((hφ j (hb hj)).lt ht) ht fun k hk => ?_).2
      rw [entry_at3 Y hj, entry_at3 Y' hj', h3 j (hb hj) k hk t ht, if_pos hmv]
    · rw [if_neg hmv]
      obtain ⟨l, hl, f, hf, hf0⟩ := hv s hsm e he'
      unfold letterProd
      apply List.prod_eq_zero
      rw [List.mem_map]
      refine ⟨l, hl, ?_⟩
      rw [hf.getD l2.1 l2.2 ht, ← hf0]
      congr 1
      funext k
      rw [entry_at3 Y' hj', h3 j (hb hj) k k.2 t ht, if_neg hmv]
  · intro s hsm j hj ext he
    have l1 := (h2.2 _ (List.getElem_mem hj))
    exact slowSingle_length l1.2 (warp_ne h2 hd (List.getElem_mem hj)) (lettersFit_of hp hsm l1.1 l1.2) (by simpa using he) (Or.inl hr)

theorem shape_of_warp_id {A : Data R} {m n : ℕ} (hl : ∀ a ∈ A, a.length = m) (h : A = A.map (warp2 (fun _ t => t) n)) : ∀ a ∈ A, HasShape2 a m n := by
  intro a ha
  rw [h] at ha
  obtain ⟨b, hb, rfl⟩ := List.mem_map.1 ha
  refine ⟨by simp [warp2, hl b hb], ?_⟩
  intro r hr
  simp only [warp2, List.mem_mapIdx] at hr
  obtain ⟨i, hi, rfl⟩ := hr
  simp [warpRow]

/-- **C159**: the features that an Arctic `ISS` with such words and a warp-invariant sieve (C96) compute do not change when samples are repeated, in
every series on its own. -/
theorem C159_arctic_features (T : FloatText R) (expf : R → R) {X : Data R} {m d n n' : ℕ} (hX : HasShape X m d n)
    (hm : 0 < m) (hd : 0 < d) {φ : ℕ → ℕ → ℕ} (hφ : ∀ i < m, IsWarp n n' (φ i)) (words : List (IWord R)) (mode : ISSMode)
    (hs : GeneralISS (⟨words, mode, .arctic, none⟩ : ISSConf R)) (hp : PointwiseWords d words)
    (wt : Option (Bool × WeightingKind R)) (hwt : WarpFree wt) (s : Sieve R) (hsv : SieveWarps T s X m n n' φ) :
    issSieve T expf words mode .arctic wt s (warp φ n' X) (warp φ n' X) = issSieve T expf words mode .arctic wt s X X := by
  have hn := (hφ 0 hm).pos
  obtain ⟨w, w', e1, e2, e3⟩ := weightingOf_warp T hX hm hd hφ hX (hX.warp φ n') wt hwt
  have hs' : GeneralISS (⟨words, mode, .arctic, w⟩ : ISSConf R) := ⟨hs.1, hs.2, hs.3, hs.4, hs.5⟩
  have hsum := C159_arctic expf hX hd hφ ⟨words, mode, .arctic, w⟩ hs' rfl hp w'
  unfold issSieve
  simp only [e1, e2, ok_bind]
  have hus : (⟨words, mode, .arctic, w⟩ : ISSConf R).Usable := fun h => absurd h hs'.semiring
  have hok := transform_eq expf hus hs'.nonempty X
  generalize (⟨words, mode, .arctic, w⟩ : ISSConf R).blockRows expf X 0 words = A at hok
  have hlen := (C17_count expf _ hus X A hok).2
  have hshape : ∀ a ∈ A, HasShape2 a m n := by
    apply shape_of_warp_id (fun a ha => by rw [hlen a ha, hX.1])
    have := C159_arctic expf hX hd (φ := fun _ t => t) (fun i hi => isWarp_id hn) ⟨words, mode, .arctic, w⟩ hs' rfl hp w
    rw [warp_id hX, hok] at this
    exact Except.ok.inj this
  rw [hok] at hsum ⊢
  have hsum' : (⟨words, mode, .arctic, w'⟩ : ISSConf R).transform expf (warp φ n' X) = .ok (A.map (warp2 φ n')) := hsum
  rw [hsum', ok_bind, ok_bind]
  exact mapM_congr_warp hsv A hshape

/-- **C159**: so do the features of `INC` followed by a Reals `ISS` with such words. -/
theorem C159_reals_features (T : FloatText R) [NpMath R] (expf : R → R) {X : Data R} {m d n n' : ℕ} (hX : HasShape X m d n)
    (hm : 0 < m) (hd : 0 < d) {φ : ℕ → ℕ → ℕ} (hφ : ∀ i < m, IsWarp n n' (φ i)) (zp : Bool) (words : List (IWord R)) (mode : ISSMode)
    (hs : GeneralISS (⟨words, mode, .reals, none⟩ : ISSConf R)) (hp : PointwiseWords d words) (hv : VanishingWords d words)
    (wt : Option (Bool × WeightingKind R)) (hwt : WarpFree wt) (s : Sieve R) (hsv : SieveWarps T s X m n n' φ) :
    ((Prep.inc ⟨.int 1, 1, zp⟩).transform T (warp φ n' X) >>= fun Y' => issSieve T expf words mode .reals wt s (warp φ n' X) Y') =
      ((Prep.inc ⟨.int 1, 1, zp⟩).transform T X >>= fun Y => issSieve T expf words mode .reals wt s X Y) := by
  have hn := (hφ 0 hm).pos
  obtain ⟨Y, Y', h1, h1', h2, h2', _⟩ := inc_warp T hX hφ zp
  rw [h1, h1', ok_bind, ok_bind]
  obtain ⟨w, w', e1, e2, e3⟩ := weightingOf_warp T hX hm hd hφ h2 h2' wt hwt
  have hs' : GeneralISS (⟨words, mode, .reals, w⟩ : ISSConf R) := ⟨hs.1, hs.2, hs.3, hs.4, hs.5⟩
  obtain ⟨Y1, Y1', g1, g1', hsum⟩ := C159_reals T expf hX hd hφ zp ⟨words, mode, .reals, w⟩ hs' rfl hp hv w'
  rw [h1] at g1; rw [h1'] at g1'
  obtain rfl := Except.ok.inj g1
  obtain rfl := Except.ok.inj g1'
  obtain ⟨Y2, Y2', k1, k1', k2⟩ := C159_reals T expf hX hd (φ := fun _ t => t) (fun i hi => isWarp_id hn) zp ⟨words, mode, .reals, w⟩ hs' rfl hp hv w
  rw [warp_id hX, h1] at k1'; rw [h1] at k1
  obtain rfl := Except.ok.inj k1
  obtain rfl := Except.ok.inj k1'
  unfold issSieve
  simp only [e1, e2, ok_bind]
  have hus : (⟨words, mode, .reals, w⟩ : ISSConf R).Usable := fun h => absurd h hs'.semiring
  have hok := transform_eq expf hus hs'.nonempty Y
  generalize (⟨words, mode, .reals, w⟩ : ISSConf R).blockRows expf Y 0 words = A at hok
  have hlen := (C17_count expf _ hus Y A hok).2
  have hshape : ∀ a ∈ A, HasShape2 a m n := by
    apply shape_of_warp_id (fun a ha => by rw [hlen a ha, h2.1])
    have k3 : (⟨words, mode, .reals, w⟩ : ISSConf R).transform expf Y = _ := k2
    rw [hok] at k3
    exact Except.ok.inj k3
  rw [hok] at hsum ⊢
  have hsum' : (⟨words, mode, .reals, w'⟩ : ISSConf R).transform expf Y' = .ok (A.map (warp2 φ n')) := hsum
  rw [hsum', ok_bind, ok_bind]
  exact mapM_congr_warp hsv A hshape

/-- `DIM(i)` and `ABS(i)` (indices from zero, as the code binds them) look at one time point at a time and are zero at zero. -/
theorem C159_dim_abs {d i : ℕ} (hi : i < d) :
    IsPointwise d (dimLetter (i : ℤ) : BoundLetter R) (fun v => v ⟨i, hi⟩) ∧ IsPointwise d (absLetter (i : ℤ) : BoundLetter R) (fun v => |v ⟨i, hi⟩|) := by
  have h1 : IsPointwise d (dimLetter (i : ℤ) : BoundLetter R) (fun v => v ⟨i, hi⟩) := by
    intro n Z hl hZ
    unfold dimLetter
    rw [if_pos (by omega)]
    have hi' : i < Z.length := by omega
    have hrow : row Z i = Z[i] := by simp [row, hi']
    have hlen : (row Z i).length = n := by rw [hrow]; exact hZ _ (List.getElem_mem hi')
    simp only [Int.toNat_natCast]
    refine eq_tab hlen fun t ht => ?_
    change _ = (row Z i).getD t 0
    rw [List.getD_eq_getElem?_getD, List.getElem?_eq_getElem ht]
    rfl
  refine ⟨h1, ?_⟩
  intro n Z hl hZ
  unfold absLetter
  rw [h1 n Z hl hZ, map_tab]

/-- **C159.** For Bayesian iterated sums the same fails, on positive data: the general word `[DIM(1)][DIM(1)]` multiplies the values at two different
times, and repeating the maximum allows to take it twice (the simple word `[1][1]` may take one time twice, so C95 holds for it). -/
theorem C159_bayesian_false : ∃ (g : GWord ℚ) (X : Data ℚ) (φ : ℕ → ℕ → ℕ), PointwiseWords 1 [IWord.general g] ∧
    VanishingWords 1 [IWord.general g] ∧ HasShape X 1 1 2 ∧ (∀ i < 1, IsWarp 2 3 (φ i)) ∧ warp φ 3 X = [[[2, 3, 3]]] ∧
    (⟨[.general g], .single, .bayesian, none⟩ : ISSConf ℚ).transform (fun _ => 1) X = .ok [[[0, 6]]] ∧
    (⟨[.general g], .single, .bayesian, none⟩ : ISSConf ℚ).transform (fun _ => 1) (warp φ 3 X) = .ok [[[0, 6, 9]]] := by
  have h0 := (C159_dim_abs (R := ℚ) (d := 1) (i := 0) (by omega)).1
  refine ⟨⟨[⟨[dimLetter], [0], "DIM(1)".toList⟩, ⟨[dimLetter], [0], "DIM(1)".toList⟩], none⟩, [[[2, 3]]],
    fun _ t => if t = 0 then 0 else 1, ?_, ?_, by simp [HasShape], ?_, by decide +kernel, by decide +kernel, by decide +kernel⟩
  · intro s hs el hel l hl
    simp only [List.mem_singleton, IWord.general.injEq] at hs
    subst hs
    simp only [List.mem_cons, List.not_mem_nil, or_false, or_self] at hel
    subst hel
    simp only [ELetter.bound, List.zipWith, List.mem_singleton] at hl
    subst hl
    exact ⟨_, h0⟩
  · intro s hs el hel
    simp only [List.mem_singleton, IWord.general.injEq] at hs
    subst hs
    simp only [List.mem_cons, List.not_mem_nil, or_false, or_self] at hel
    subst hel
    exact ⟨_, by simp [ELetter.bound], _, h0, rfl⟩
  · intro i _
    refine ⟨by omega, by omega, rfl, rfl, fun t ht => ?_⟩
    have : t = 0 ∨ t = 1 := by omega
    rcases this with rfl | rfl <;> simp

end Fruits

namespace Fruits.WarpExample
open Fruits

/-- `[DIM(1)][ABS(1)DIM(1)]`. -/
def gword : GWord ℚ := ⟨[⟨[dimLetter], [0], "DIM(1)".toList⟩, ⟨[absLetter, dimLetter], [0, 0], "ABS(1)DIM(1)".toList⟩], none⟩

theorem generalIss (mode : ISSMode) (k : SemiringKind) (hk : k ≠ .arcticArgmax) : GeneralISS (⟨[.general gword], mode, k, none⟩ : ISSConf ℚ) where
  semiring := hk
  nonempty := by simp
  general := by intro w hw; simp only [List.mem_singleton] at hw; exact ⟨_, hw⟩
  letters := by intro w hw; simp only [List.mem_singleton] at hw; subst hw; decide
  blocks := by
    intro _ w hw
    simp only [List.mem_singleton] at hw
    subst hw
    exact ⟨["DIM(1)".toList, "ABS(1)DIM(1)".toList], by simp [BlocksOK, BracketFree], rfl, rfl⟩

theorem gword_pointwise : PointwiseWords 1 [IWord.general gword] := by
  have h0 := C159_dim_abs (R := ℚ) (d := 1) (i := 0) (by omega)
  intro s hs el hel l hl
  simp only [List.mem_singleton, IWord.general.injEq] at hs
  subst hs
  simp only [gword, List.mem_cons, List.not_mem_nil, or_false] at hel
  rcases hel with rfl | rfl
  · simp only [ELetter.bound, List.zipWith, List.mem_singleton] at hl
    subst hl
    exact ⟨_, h0.1⟩
  · simp only [ELetter.bound, List.zipWith, List.mem_cons, List.not_mem_nil, or_false] at hl
    rcases hl with rfl | rfl
    exacts [⟨_, h0.2⟩, ⟨_, h0.1⟩]

theorem gword_vanishing : VanishingWords 1 [IWord.general gword] := by
  have h0 := C159_dim_abs (R := ℚ) (d := 1) (i := 0) (by omega)
  intro s hs el hel
  simp only [List.mem_singleton, IWord.general.injEq] at hs
  subst hs
  simp only [gword, List.mem_cons, List.not_mem_nil, or_false] at hel
  rcases hel with rfl | rfl
  · exact ⟨_, by simp [ELetter.bound], _, h0.1, rfl⟩
  · exact ⟨_, by simp [ELetter.bound], _, h0.1, rfl⟩

/-- The hypotheses of C159 hold here … -/
example [NpMath ℚ] (mode : ISSMode) :
    ((Prep.inc ⟨.int 1, 1, false⟩).transform ratText (warp φ 6 X) >>= fun Y' =>
      issSieve ratText (fun _ => (1 : ℚ)) [.general gword] mode .reals none (.seg .end_ { q := [-1, 1] }) (warp φ 6 X) Y') =
    ((Prep.inc ⟨.int 1, 1, false⟩).transform ratText X >>= fun Y =>
      issSieve ratText (fun _ => (1 : ℚ)) [.general gword] mode .reals none (.seg .end_ { q := [-1, 1] }) X Y) :=
  C159_reals_features ratText _ shape (by omega) (by omega) warps false _ mode (generalIss _ _ (by decide)) gword_pointwise gword_vanishing none trivial _
    (end_warps ratText (by omega) warps)

example (mode : ISSMode) :
    issSieve ratText (fun _ => (1 : ℚ)) [.general gword] mode .arctic none (.seg .max { q := [-1, 1] }) (warp φ 6 X) (warp φ 6 X) =
      issSieve ratText (fun _ => (1 : ℚ)) [.general gword] mode .arctic none (.seg .max { q := [-1, 1] }) X X :=
  C159_arctic_features ratText _ shape (by omega) (by omega) warps _ mode (generalIss _ _ (by decide)) gword_pointwise none trivial _
    fun _ hA => C96_max_min ratText ratText_lawful shape (by omega) (by omega) warps _ (by simp [Cut.Elastic]) rfl hA _ (Or.inl rfl)

/-- … and these are the features. -/
example [NpMath ℚ] : ∀ Z ∈ [X, warp φ 6 X], ((Prep.inc ⟨.int 1, 1, true⟩).transform ratText Z >>= fun Y =>
    issSieve ratText (fun _ => (1 : ℚ)) [.general gword] .extended .reals none (.seg .end_ { q := [-1, 1] }) Z Y) = .ok [[[1], [3]], [[-2], [0]]] := by
  intro Z hZ
  simp only [List.mem_cons, List.not_mem_nil, or_false] at hZ
  have e : ∀ Z : Data ℚ, (Prep.inc ⟨.int 1, 1, true⟩).transform ratText Z = INC.transform ⟨.int 1, 1, true⟩ Z := fun _ => rfl
  rcases hZ with rfl | rfl <;> rw [e] <;> decide +kernel

end Fruits.WarpExample
