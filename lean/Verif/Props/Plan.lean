import Verif.Props.Kernels
import Verif.CachePlanLemmas

/-! # C16–C21: batches, counts, labels and the EXTENDED mode of `ISS` -/

set_option linter.unusedSectionVars false

namespace Fruits
variable {R : Type} [Field R] [LinearOrder R] [IsStrictOrderedRing R] [FloorRing R]

/-! ## C16 -/

/-- **C16**: for every batch size `1 ≤ b ≤ len(words)` the generator `batch_transform(X, b)` ends, the yielded
arrays concatenate to `transform(X)`, and their number is the least `m` with `len(words) ≤ b * m`. -/
theorem C16_batches (expf : R → R) (c : ISSConf R) (hc : c.Usable) (X : Data R) {b : ℕ} (hb : 1 ≤ b)
    (hbl : b ≤ c.words.length) :
    ∃ (A : Data R) (bs : List (Data R)), c.transform expf X = .ok A ∧
      (∀ fuel, c.words.length ≤ fuel → c.batchTransform expf X fuel b = .ok (bs, true)) ∧
      bs.flatten = A ∧ c.words.length ≤ b * bs.length ∧ b * (bs.length - 1) < c.words.length := by
  have hne : c.words ≠ [] := by intro h; rw [h] at hbl; simp at hbl; omega
  refine ⟨c.blockRows expf X 0 c.words, ?_⟩
  obtain ⟨bs, h1, h2, h3⟩ := calc_eq expf hc X c.words.length 0 b hb (Nat.zero_le _) (by omega)
  refine ⟨bs, transform_eq expf hc hne X, ?_, ?_, ?_, ?_⟩
  · intro fuel hf
    obtain ⟨bs', h1', h2', h3'⟩ := calc_eq expf hc X fuel 0 b hb (Nat.zero_le _) (by omega)
    have hmono : ∀ (f g i b : ℕ) (r : List (Data R)), f ≤ g → c.calc expf X f i b = .ok (r, true) →
        c.calc expf X g i b = .ok (r, true) := by
      intro f
      induction f with
      | zero =>
        intro g i b r _ h
        simp only [ISSConf.calc, Except.ok.injEq, Prod.mk.injEq, decide_eq_true_eq] at h
        cases g with
        | zero => simp [ISSConf.calc, h.1, h.2]
        | succ g => rw [ISSConf.calc, if_neg h.2, ← h.1]
      | succ f ih =>
        intro g i b r hfg h
        obtain ⟨g, rfl⟩ : ∃ g', g = g' + 1 := ⟨g - 1, by omega⟩
        rw [ISSConf.calc] at h ⊢
        split at h
        · next hlt =>
          rw [if_pos hlt]
          generalize hb' : (if i + b > c.words.length then c.words.length - i else b) = b' at h ⊢
          rcases hr0 : c.batch expf X i b' with e | r0
          · simp [hr0, bind, Except.bind] at h
          · rcases hp : c.calc expf X f (i + b') b' with e | ⟨p1, p2⟩
            · simp [hr0, hp, bind, Except.bind] at h
            · simp only [hr0, hp, bind, Except.bind, pure, Except.pure, Except.ok.injEq,
                Prod.mk.injEq] at h
              obtain ⟨h1, rfl⟩ := h
              have := ih g _ _ p1 (by omega) hp
              simp only [hr0, bind, Except.bind]
              rw [this, ← h1]
              rfl
        · next hlt => rw [if_neg hlt]; exact h
    unfold ISSConf.batchTransform
    rw [if_neg (by omega)]
    exact hmono _ _ _ _ _ hf h1
  · simpa using h2
  · rw [h3]
    have := Nat.div_add_mod (c.words.length - 0 + b - 1) b
    have h5 := Nat.mod_lt (c.words.length - 0 + b - 1) (show 0 < b by omega)
    omega
  · rw [h3]
    have h4 := Nat.div_add_mod (c.words.length - 0 + b - 1) b
    rw [Nat.mul_sub, mul_one]
    omega

/-- Batch sizes larger than the number of words are rejected. -/
theorem C16_too_large (expf : R → R) (c : ISSConf R) (X : Data R) (fuel : ℕ) {b : ℕ}
    (hb : c.words.length < b) : c.batchTransform expf X fuel b = .error .valueError := by
  unfold ISSConf.batchTransform
  rw [if_pos hb]

/-- With `batch_size = 0` the generator never ends: no number of iterations finishes it. -/
theorem C16_zero_never_ends (expf : R → R) (c : ISSConf R) (X : Data R) (hne : c.words ≠ [])
    (fuel : ℕ) (bs : List (Data R)) : c.batchTransform expf X fuel 0 ≠ .ok (bs, true) := by
  have hl : 0 < c.words.length := List.length_pos_iff.2 hne
  unfold ISSConf.batchTransform
  rw [if_neg (by omega)]
  suffices h : ∀ bs, c.calc expf X fuel 0 0 ≠ .ok (bs, true) from h bs
  induction fuel with
  | zero => intro bs; simp [ISSConf.calc, hl]
  | succ fuel ih =>
    intro bs h
    rw [ISSConf.calc, if_pos hl] at h
    simp only [Nat.add_zero, gt_iff_lt, Nat.not_lt_zero, if_false, bind, Except.bind] at h
    split at h
    · simp at h
    · split at h
      · simp at h
      · next p hp =>
        obtain ⟨p1, p2⟩ := p
        simp only [pure, Except.pure, Except.ok.injEq, Prod.mk.injEq] at h
        obtain ⟨_, rfl⟩ := h
        exact ih p1 hp

/-- `Arctic(argmax=True)` in SINGLE mode is rejected by `transform`, by every batch and by
`n_iterated_sums`. -/
theorem C16_argmax_single (expf : R → R) (c : ISSConf R) (hs : c.semiring = .arcticArgmax)
    (hm : c.mode = .single) (hne : c.words ≠ []) (X : Data R) (fuel b : ℕ) (hb : b ≤ c.words.length) :
    c.transform expf X = .error .notImplementedError ∧
    c.batchTransform expf X (fuel + 1) b = .error .notImplementedError ∧
    c.nIteratedSums = .error .notImplementedError := by
  have hl : 0 < c.words.length := List.length_pos_iff.2 hne
  refine ⟨?_, ?_, ?_⟩
  · unfold ISSConf.transform ISSConf.batch ISSConf.nBatch
    rw [if_neg (by omega), hs, hm]; rfl
  · unfold ISSConf.batchTransform
    rw [if_neg (by omega), ISSConf.calc, if_pos hl]
    unfold ISSConf.batch ISSConf.nBatch
    rw [hs, hm]; rfl
  · unfold ISSConf.nIteratedSums; rw [hs, hm]

/-! ## C17 -/

theorem nIteratedSums_eq {c : ISSConf R} (hc : c.Usable) :
    c.nIteratedSums = .ok (c.blockCount 0 c.words) := by
  have h := nBatch_eq hc 0 c.words.length (by omega)
  rw [List.drop_zero, List.take_length] at h
  rw [← h]
  unfold ISSConf.nIteratedSums ISSConf.nBatch
  cases hs : c.semiring <;> cases hm : c.mode <;> simp only [List.drop_zero, List.take_length]
  all_goals
    congr 1
    unfold planCount planCountRange
    have hp : c.plan.length = c.words.length := by simp [ISSConf.plan, hm, cachePlan]
    congr 1
    rw [← hp]
    apply List.ext_getElem
    · simp
    · intro i h1 h2
      simp [List.getD_eq_getElem?_getD, h1]

/-- **C17**: `n_iterated_sums()` is the size of the first axis of `transform(X)`, and the second axis has one
entry per series. -/
theorem C17_count (expf : R → R) (c : ISSConf R) (hc : c.Usable) (X : Data R) (A : Data R)
    (hA : c.transform expf X = .ok A) :
    c.nIteratedSums = .ok A.length ∧ ∀ a ∈ A, a.length = X.length := by
  have hne : c.words ≠ [] := by
    intro h
    unfold ISSConf.transform at hA
    rw [if_pos (by rw [h]; rfl)] at hA
    simp at hA
  rw [transform_eq expf hc hne, Except.ok.injEq] at hA
  subst hA
  constructor
  · rw [nIteratedSums_eq hc, blockRows_length hc X 0 c.words (fun w h => h)]
  · suffices h : ∀ i ws, ∀ a ∈ c.blockRows expf X i ws, a.length = X.length from h 0 c.words
    intro i ws
    induction ws generalizing i with
    | nil => intro a ha; simp [ISSConf.blockRows] at ha
    | cons w ws ih =>
      intro a ha
      rw [ISSConf.blockRows, List.mem_append] at ha
      rcases ha with ha | ha
      · unfold ISSConf.wordRows swapAxes at ha
        rw [mem_tab] at ha
        obtain ⟨r, _, rfl⟩ := ha
        unfold iteratedSums
        split <;> simp
      · exact ih _ a ha

example : (⟨[.simple ⟨[[1], [2]], 1, "[1][11]".toList, none⟩], .extended, .arcticArgmax, none⟩ :
    ISSConf ℚ).Usable := by
  intro _; exact ⟨rfl, by simp⟩

/-! ## C18, C20: labels -/

/-- The string of `w` is `[b₁]…[b_p]` with one bracket-free block per extended letter. -/
def HasBlocks {R : Type} (w : IWord R) (bs : List PStr) : Prop :=
  BlocksOK bs ∧ w.str = render bs ∧ bs.length = w.len

/-- What `label` appends for the semiring and the weighting. -/
def ISSConf.suffix {R : Type} (c : ISSConf R) : PStr :=
  (if c.semiring = .reals then [] else " : ".toList ++ c.semiring.className) ++
  (match c.weighting with
    | none => []
    | some wt => " : ".toList ++ wt.name)

theorem label_of {c : ISSConf R} {i : ℕ} {r : Except Err PStr}
    (h : c.labelBase i = r) :
    c.label i = r.map (· ++ c.suffix) := by
  unfold ISSConf.label
  simp only [h]
  cases r with
  | error e => rfl
  | ok s =>
    simp only [bind, Except.bind, Except.map, pure, Except.pure, ISSConf.suffix]
    congr 1
    cases hw : c.weighting <;> by_cases hs : c.semiring = .reals <;> simp [hs]

theorem strs_eq {words : List (IWord R)} (h : ∀ w ∈ words, ∃ bs, HasBlocks w bs) :
    ∃ W : List (List PStr), W.length = words.length ∧ (∀ w ∈ W, BlocksOK w) ∧
      words.map IWord.str = W.map render ∧
      ∀ i (h : i < words.length), HasBlocks words[i] (W.getD i []) := by
  induction words with
  | nil => exact ⟨[], rfl, by simp, rfl, by simp⟩
  | cons w ws ih =>
    obtain ⟨bs, hb⟩ := h w (by simp)
    obtain ⟨W, h1, h2, h3, h4⟩ := ih fun w hw => h w (by simp [hw])
    refine ⟨bs :: W, by simp [h1], ?_, by simp [h3, hb.2.1], ?_⟩
    · intro v hv
      rcases List.mem_cons.1 hv with rfl | hv
      · exact hb.1
      · exact h2 v hv
    · intro i hi
      cases i with
      | zero => simpa using hb
      | succ i => simpa using h4 i (by simpa using hi)

theorem HasBlocks.unique {w : IWord R} {bs bs' : List PStr} (h : HasBlocks w bs)
    (h' : HasBlocks w bs') : bs = bs' :=
  render_injective h.1 h'.1 (h.2.1.symm.trans h'.2.1)

theorem ext_labels {c : ISSConf R} (hm : c.mode = .extended) {W : List (List PStr)}
    (hW : ∀ w ∈ W, BlocksOK w) (hs : c.words.map IWord.str = W.map render) (i : ℕ) :
    c.label i = match (reported W)[i]? with
      | some s => .ok (render s ++ c.suffix)
      | none => .error .indexError := by
  have h := plan_label hW i
  rw [label_of (r := getWordString (cachePlan (W.map render)) (W.map render) i)
    (by simp only [ISSConf.labelBase, ISSConf.plan, hm, hs]), h]
  cases (reported W)[i]? <;> rfl

/-- **C18**: in EXTENDED mode the labels are, without repetition, exactly the non-empty beginnings
`[b₁]…[b_q]` of the words (`L` lists them; `label` appends the same suffix to each, which is empty for the
Reals semiring without weighting), and there are `n_iterated_sums()` of them. -/
theorem C18_labels_are_prefixes (c : ISSConf R) (hm : c.mode = .extended)
    (hw : ∀ w ∈ c.words, ∃ bs, HasBlocks w bs) :
    ∃ L : List PStr, L.Nodup ∧
      (∀ s, s ∈ L ↔ ∃ w ∈ c.words, ∃ bs, HasBlocks w bs ∧
        ∃ q, 1 ≤ q ∧ q ≤ bs.length ∧ s = render (bs.take q)) ∧
      (∀ i (h : i < L.length), c.label i = .ok (L[i] ++ c.suffix)) ∧
      (∀ i, L.length ≤ i → c.label i = .error .indexError) ∧
      (c.semiring ≠ .arcticArgmax → c.nIteratedSums = .ok L.length) := by
  obtain ⟨W, h1, h2, h3, h4⟩ := strs_eq hw
  have hrep : ∀ s ∈ reported W, BlocksOK s := by
    intro s hs
    obtain ⟨_, w, hw, hp⟩ := (mem_reported h2 s).1 hs
    intro b hb
    exact h2 w hw b (hp.subset hb)
  refine ⟨(reported W).map render, ?_, ?_, ?_, ?_, ?_⟩
  · exact (reported_nodup h2).map_on fun a ha b hb h => render_injective (hrep a ha) (hrep b hb) h
  · intro s
    rw [List.mem_map]
    constructor
    · rintro ⟨p, hp, rfl⟩
      obtain ⟨hne, w, hw, hpw⟩ := (mem_reported h2 p).1 hp
      obtain ⟨i, hi, rfl⟩ := List.getElem_of_mem hw
      have h4i := h4 i (by omega)
      rw [show W.getD i [] = W[i] by simp [List.getD_eq_getElem?_getD, hi]] at h4i
      refine ⟨_, List.getElem_mem (by omega : i < c.words.length), W[i], h4i, p.length,
        List.length_pos_iff.2 hne, hpw.length_le, ?_⟩
      rw [← List.prefix_iff_eq_take.1 hpw]
    · rintro ⟨w, hw, bs, hb, q, hq1, hq2, rfl⟩
      obtain ⟨i, hi, rfl⟩ := List.getElem_of_mem hw
      have := (h4 i hi).unique hb
      refine ⟨bs.take q, (mem_reported h2 _).2 ⟨?_, bs, ?_, List.take_prefix _ _⟩, rfl⟩
      · intro h
        have := congrArg List.length h
        simp only [List.length_take, List.length_nil] at this
        omega
      · rw [← this]
        simp [List.getD_eq_getElem?_getD, h1, hi]
  · intro i hi
    rw [ext_labels hm h2 h3 i]
    simp only [List.length_map] at hi
    simp [hi]
  · intro i hi
    rw [ext_labels hm h2 h3 i]
    simp only [List.length_map] at hi
    simp [hi]
  · intro hk
    rw [List.length_map, reported_length]
    unfold ISSConf.nIteratedSums
    cases hs : c.semiring <;> simp_all [ISSConf.plan]

/-- The hypothesis of C18 is met: two words with a common beginning. -/
example : ∀ w ∈ ([.simple ⟨[[1, 0], [1, 1]], 2, "[1][12]".toList, none⟩,
    .simple ⟨[[1, 0], [0, 1]], 2, "[1][2]".toList, none⟩] : List (IWord ℚ)), ∃ bs, HasBlocks w bs := by
  intro w hw
  simp only [List.mem_cons, List.not_mem_nil, or_false] at hw
  rcases hw with rfl | rfl
  · exact ⟨["1".toList, "12".toList], by simp [BlocksOK, BracketFree], rfl, rfl⟩
  · exact ⟨["1".toList, "2".toList], by simp [BlocksOK, BracketFree], rfl, rfl⟩

/-! ## C19–C21: EXTENDED mode equals SINGLE mode on the prefixes -/

/-- Exponent vectors that differ only by trailing zeros. -/
def SameLetter (a b : List ℤ) : Prop := ∀ d, a.getD d 0 = b.getD d 0

/-- `w` has the string `[b₁]…[b_p]` and its `k`-th extended letter is the one written in block `b_k`, where
`elOf b` is the vector of exponents written in `b` (up to trailing zeros: `SimpleWord` pads all extended
letters to the highest dimension of the word). -/
def Spells {R : Type} (elOf : PStr → List ℤ) (w : SWord R) (bs : List PStr) : Prop :=
  HasBlocks (.simple w) bs ∧ ∀ k < bs.length, SameLetter (w.els.getD k []) (elOf (bs.getD k []))

theorem monomial_same {a b : List ℤ} (h : SameLetter a b) (Z : List (List R)) (t : ℕ) :
    monomial Z a t = monomial Z b t := by
  have key : ∀ (a : List ℤ) m, a.length ≤ m →
      monomial Z a t = ∏ d ∈ Finset.range m, entry Z d t ^ (a.getD d 0) := by
    intro a m hm
    unfold monomial
    apply Finset.prod_subset
    · intro d hd; simp only [Finset.mem_range] at hd ⊢; omega
    · intro d _ hd
      simp only [Finset.mem_range, not_lt] at hd
      simp [List.getD_eq_getElem?_getD, hd]
  rw [key a (max a.length b.length) (le_max_left _ _), key b (max a.length b.length) (le_max_right _ _)]
  apply Finset.prod_congr rfl
  intro d _
  rw [h d]

theorem linform_same {a b : List ℤ} (h : SameLetter a b) (Z : List (List R)) (t : ℕ) :
    linform Z a t = linform Z b t := by
  have key : ∀ (a : List ℤ) m, a.length ≤ m →
      linform Z a t = ∑ d ∈ Finset.range m, (a.getD d 0 : R) * entry Z d t := by
    intro a m hm
    unfold linform
    apply Finset.sum_subset
    · intro d hd; simp only [Finset.mem_range] at hd ⊢; omega
    · intro d _ hd
      simp only [Finset.mem_range, not_lt] at hd
      simp [List.getD_eq_getElem?_getD, hd]
  rw [key a (max a.length b.length) (le_max_left _ _), key b (max a.length b.length) (le_max_right _ _)]
  apply Finset.sum_congr rfl
  intro d _
  rw [h d]

/-- The kernels do not see trailing zeros of the exponent vectors. -/
theorem fastSingle_same (expf : R → R) {k : SemiringKind} (hk : k ≠ .arcticArgmax)
    {Z : List (List R)} {n : ℕ} (hZ : Rect Z n) (hne : Z ≠ []) {word word' : List (List ℤ)}
    (hfit : ∀ el ∈ word, Fits Z el) (hfit' : ∀ el ∈ word', Fits Z el)
    (hl : word.length = word'.length)
    (hs : ∀ j < word.length, SameLetter (word.getD j []) (word'.getD j []))
    (alpha : List R) {weights : List R} (hw : weights.length = n) (total : Bool) {ext : ℕ}
    (he : ext ≤ word.length) :
    fastSingle expf k Z word alpha weights ext total
      = fastSingle expf k Z word' alpha weights ext total := by
  have hm : monos Z word = monos Z word' := by
    funext j t
    unfold monos
    rcases Nat.lt_or_ge j word.length with h | h
    · exact monomial_same (hs j h) Z t
    · simp [List.getD_eq_getElem?_getD, h, hl ▸ h]
  have hlin : lins Z word = lins Z word' := by
    funext j t
    unfold lins
    rcases Nat.lt_or_ge j word.length with h | h
    · exact linform_same (hs j h) Z t
    · simp [List.getD_eq_getElem?_getD, h, hl ▸ h]
  have he' : ext ≤ word'.length := hl ▸ he
  cases k <;> cases total <;> simp only [fastSingle]
  · rw [realsSingle_eq expf hZ hne hfit _ hw he, realsSingle_eq expf hZ hne hfit' _ hw he', hm, hl]
  · rw [totalReals_eq expf hZ hne hfit _ hw he, totalReals_eq expf hZ hne hfit' _ hw he', hm, hl]
  · rw [arcticSingle_eq hZ hne hfit _ hw he, arcticSingle_eq hZ hne hfit' _ hw he', hlin, hl]
  · rw [totalArctic_eq hZ hne hfit _ hw he, totalArctic_eq hZ hne hfit' _ hw he', hlin, hl]
  · exact absurd rfl hk
  · exact absurd rfl hk
  · rw [bayesianSingle_eq expf hZ hne hfit _ hw he, bayesianSingle_eq expf hZ hne hfit' _ hw he', hm, hl]
  · rw [totalBayesian_eq expf hZ hne hfit _ hw he, totalBayesian_eq expf hZ hne hfit' _ hw he', hm, hl]

/-- The exponents `alpha` the library uses for `w`: zeros without weighting. -/
def usedAlpha (wt : Option (Weighting R)) (w : SWord R) : List R :=
  match wt with
  | some _ => w.getAlpha
  | none => zeros w.els.length

private def lookupOf (wt : Option (Weighting R)) (X : Data R) : List (List R) :=
  match wt with
  | some wt => wt.lookup X
  | none => X.map (fun Z => zeros (ncols Z))

private def totalOf (wt : Option (Weighting R)) : Bool :=
  match wt with
  | some wt => wt.total
  | none => true

private theorem iteratedSums_simple (expf : R → R) (k : SemiringKind) (X : Data R) (w : SWord R)
    (ext : ℕ) (wt : Option (Weighting R)) :
    iteratedSums expf k X (.simple w) ext wt = X.mapIdx (fun j Z =>
      fastSingle expf k Z w.els (usedAlpha wt w) ((lookupOf wt X).getD j []) ext (totalOf wt)) := by
  cases wt <;> rfl

private theorem lookupOf_length {wt : Option (Weighting R)} {X : Data R} {D n : ℕ} (hX : IsData X D n)
    (hD : 0 < D) (hlook : ∀ g, wt = some g → LookupFor g X n) (j : ℕ) (hj : j < X.length) :
    ((lookupOf wt X).getD j []).length = n := by
  have hZ := hX _ (List.getElem_mem hj)
  have hne : X[j] ≠ [] := by
    intro h; have := hZ.1; rw [h] at this; simp at this; omega
  cases wt with
  | none => simp [lookupOf, List.getD_eq_getElem?_getD, hj, ncols_eq hZ.2 hne]
  | some g =>
    obtain ⟨h1, h2⟩ := hlook g rfl
    apply h2
    simp [lookupOf, List.getD_eq_getElem?_getD, h1, hj]

private def rowFor (expf : R → R) (k : SemiringKind) (wt : Option (Weighting R)) (X : Data R) (D : ℕ)
    (elOf : PStr → List ℤ) (alOf : List PStr → R) (s : List PStr) : List (List R) :=
  X.mapIdx (fun j Z => (fastSingle expf k Z (s.map fun b => (elOf b).take D)
    (tab s.length fun q => alOf (s.take (q + 1))) ((lookupOf wt X).getD j []) 1 (totalOf wt)).getD 0 [])

private theorem sameLetter_take {a b : List ℤ} {D : ℕ} (h : SameLetter a b) (ha : a.length ≤ D) :
    SameLetter a (b.take D) := by
  intro d
  rcases Nat.lt_or_ge d D with hd | hd
  · rw [h d]; simp [List.getD_eq_getElem?_getD, hd]
  · have : a.getD d 0 = 0 := by simp [List.getD_eq_getElem?_getD, show a.length ≤ d by omega]
    rw [this]
    simp [List.getD_eq_getElem?_getD, hd]

private theorem word_rowFor (expf : R → R) {k : SemiringKind} (hk : k ≠ .arcticArgmax)
    {wt : Option (Weighting R)} {X : Data R} {D n : ℕ} (hX : IsData X D n) (hD : 0 < D)
    (hlook : ∀ g, wt = some g → LookupFor g X n) (elOf : PStr → List ℤ) (alOf : List PStr → R)
    (els : List (List ℤ)) (bs : List PStr) (hl : bs.length = els.length) (hne0 : els ≠ [])
    (hfit : ∀ el ∈ els, el.length ≤ D)
    (hsp : ∀ k < bs.length, SameLetter (els.getD k []) (elOf (bs.getD k []))) :
    X.mapIdx (fun j Z => (fastSingle expf k Z els (tab bs.length fun q => alOf (bs.take (q + 1)))
      ((lookupOf wt X).getD j []) 1 (totalOf wt)).getD 0 []) = rowFor expf k wt X D elOf alOf bs := by
  unfold rowFor
  apply List.ext_getElem
  · simp
  intro j h1 h2
  simp only [List.getElem_mapIdx]
  have hj : j < X.length := by simpa using h1
  have hZ := hX _ (List.getElem_mem hj)
  have hne : X[j] ≠ [] := by
    intro h; have := hZ.1; rw [h] at this; simp at this; omega
  rw [fastSingle_same expf hk hZ.2 hne (word' := bs.map fun b => (elOf b).take D)
    (fun el hel => by unfold Fits; rw [hZ.1]; exact hfit el hel)
    (fun el hel => by
      obtain ⟨b, _, rfl⟩ := List.mem_map.1 hel
      unfold Fits; rw [hZ.1]; simp) (by simp [hl]) ?_ _ (lookupOf_length hX hD hlook j hj) _
      (List.length_pos_iff.2 hne0)]
  intro q hq
  have hqb : q < bs.length := by omega
  have e : (bs.map fun b => (elOf b).take D).getD q [] = (elOf (bs.getD q [])).take D := by
    simp [List.getD_eq_getElem?_getD, hqb]
  rw [e]
  refine sameLetter_take (hsp q hqb) (hfit _ ?_)
  simp [List.getD_eq_getElem?_getD, hq]

theorem blockRows_flatten (expf : R → R) (c : ISSConf R) (X : Data R) (i : ℕ) (ws : List (IWord R)) :
    c.blockRows expf X i ws = (ws.mapIdx fun k w => c.wordRows expf X (i + k) w).flatten := by
  induction ws generalizing i with
  | nil => rfl
  | cons w ws ih =>
    rw [ISSConf.blockRows, ih, List.mapIdx_cons, List.flatten_cons]
    simp [Nat.add_assoc, Nat.add_comm 1]

/-- Core of C19 and C21. -/
theorem ext_eq_single (expf : R → R) {k : SemiringKind} (hk : k ≠ .arcticArgmax)
    (wt : Option (Weighting R)) {X : Data R} {D n : ℕ} {words prefixes : List (SWord R)}
    (hadm : Admissible X D n words) (hadm' : Admissible X D n prefixes)
    (hlook : ∀ g, wt = some g → LookupFor g X n)
    (elOf : PStr → List ℤ) (alOf : List PStr → R)
    (hsp : ∀ w ∈ words, ∃ bs, Spells elOf w bs ∧
      usedAlpha wt w = tab bs.length fun q => alOf (bs.take (q + 1)))
    (hsp' : ∀ v ∈ prefixes, ∃ bs, Spells elOf v bs ∧
      usedAlpha wt v = tab bs.length fun q => alOf (bs.take (q + 1)))
    (hcount : (⟨words.map .simple, .extended, k, wt⟩ : ISSConf R).nIteratedSums = .ok prefixes.length)
    (hlab : ∀ i (h : i < prefixes.length),
      (⟨words.map .simple, .extended, k, wt⟩ : ISSConf R).label i
        = .ok (prefixes[i].name ++ (⟨words.map .simple, .extended, k, wt⟩ : ISSConf R).suffix)) :
    (⟨words.map .simple, .extended, k, wt⟩ : ISSConf R).transform expf X
      = (⟨prefixes.map .simple, .single, k, wt⟩ : ISSConf R).transform expf X := by
  rw [single_transform expf hk prefixes hadm'.nonempty]
  generalize hc : (⟨words.map .simple, .extended, k, wt⟩ : ISSConf R) = c at hcount hlab
  have hwords : c.words = words.map .simple := by rw [← hc]
  have hmode : c.mode = .extended := by rw [← hc]
  have hsem : c.semiring = k := by rw [← hc]
  have hwt : c.weighting = wt := by rw [← hc]
  have hus : c.Usable := fun h => absurd (hsem ▸ h) hk
  rw [transform_eq expf hus (by rw [hwords]; simpa using hadm.nonempty)]
  congr 1
  obtain ⟨W, h1, h2, h3, h4⟩ := strs_eq (words := c.words) (by
    intro w hw
    rw [hwords] at hw
    obtain ⟨w', hw', rfl⟩ := List.mem_map.1 hw
    obtain ⟨bs, hb, _⟩ := hsp w' hw'
    exact ⟨bs, hb.1⟩)
  have hlenw : words.length = W.length := by rw [h1, hwords]; simp
  -- the rows of the EXTENDED result
  have hext : c.blockRows expf X 0 c.words = (reported W).map (rowFor expf k wt X D elOf alOf) := by
    rw [blockRows_flatten, reported, List.flatMap_def, List.map_flatten, List.map_map]
    congr 1
    apply List.ext_getElem
    · simp [h1]
    intro i hi1 hi2
    have hiw : i < words.length := by rw [hwords] at hi1; simpa using hi1
    simp only [List.getElem_mapIdx, List.getElem_map, List.getElem_range, Function.comp_apply,
      Nat.zero_add]
    have hget : c.words[i]'(by rw [hwords]; simpa using hiw) = .simple words[i] := by
      simp [hwords]
    rw [hget]
    obtain ⟨bs, hb, hal⟩ := hsp _ (List.getElem_mem hiw)
    have hbs : W.getD i [] = bs := by
      have := h4 i (by rw [hwords]; simpa using hiw)
      rw [hget] at this
      exact this.unique hb.1
    have hdep : c.depth i = planDepth (W.map render) i := by
      simp only [ISSConf.depth, hmode, ISSConf.plan, cachePlan]
      rw [h3]
      simp [List.getD_eq_getElem?_getD, ← hlenw, hiw]
    have hle : planDepth (W.map render) i ≤ words[i].els.length := by
      have := planDepth_le h2 i
      rw [hbs] at this
      have h5 : bs.length = words[i].els.length := hb.1.2.2
      omega
    have hbl : bs.length = words[i].els.length := hb.1.2.2
    unfold ISSConf.wordRows swapAxes newOnes
    rw [hdep, hsem, hwt, map_tab]
    have hro : rowsOf k (IWord.simple words[i]) (planDepth (W.map render) i)
        = planDepth (W.map render) i := by
      unfold rowsOf; cases k <;> simp_all
    rw [hro]
    apply tab_congr
    intro r hr
    rw [hbs, hbl]
    generalize hq : words[i].els.length - planDepth (W.map render) i + r + 1 = q
    have hql : q ≤ words[i].els.length := by omega
    rw [iteratedSums_simple]
    rw [← word_rowFor expf hk hadm.data hadm.dims hlook elOf alOf (words[i].els.take q) (bs.take q)]
    · apply List.ext_getElem
      · simp
      intro j hj1 hj2
      simp only [List.getElem_map, List.getElem_mapIdx]
      have hj : j < X.length := by simpa using hj1
      have hZ := hadm.data _ (List.getElem_mem hj)
      have hne : X[j] ≠ [] := by
        intro h; have := hZ.1; have := hadm.dims; rw [h] at *; simp at *; omega
      rw [fastSingle_prefix expf hk hZ.2 hne
        (fun el hel => by unfold Fits; rw [hZ.1]; exact hadm.fits _ (List.getElem_mem hiw) el hel)
        _ (lookupOf_length hadm.data hadm.dims hlook j hj) hle, tab_getD _ _ _ _ hr, hq, hal,
        take_tab]
      congr 2
      simp only [List.length_take]
      apply tab_congr
      intro q' hq'
      rw [List.take_take]
      congr 2
      omega
    · simp; omega
    · intro h
      have := congrArg List.length h
      simp only [List.length_take, List.length_nil] at this
      omega
    · intro el hel
      exact hadm.fits _ (List.getElem_mem hiw) el (List.mem_of_mem_take hel)
    · intro q' hq'
      simp only [List.length_take] at hq'
      have hg : ∀ {α : Type} (l : List α) (d : α), (l.take q).getD q' d = l.getD q' d := by
        intro α l d
        simp [List.getD_eq_getElem?_getD, show q' < q by omega]
      rw [hg, hg]
      exact hb.2 q' (by omega)
  rw [hext]
  -- the rows of the SINGLE result
  have hlen : (reported W).length = prefixes.length := by
    rw [nIteratedSums_eq hus, Except.ok.injEq] at hcount
    rw [← hcount, ← blockRows_length (expf := expf) hus X 0 c.words (fun w h => h), hext]
    simp
  apply List.ext_getElem
  · simp [hlen]
  intro i hi1 hi2
  have hi : i < prefixes.length := by simpa using hi2
  simp only [List.getElem_map]
  obtain ⟨bs, hb, hal⟩ := hsp' _ (List.getElem_mem hi)
  have hrep : (reported W)[i]'(by omega) = bs := by
    have hl1 := hlab i hi
    rw [ext_labels hmode h2 h3 i] at hl1
    simp only [hlen, hi, List.getElem?_eq_getElem, Except.ok.injEq, List.append_left_inj] at hl1
    refine render_injective ?_ hb.1.1 (hl1.trans hb.1.2.1)
    obtain ⟨_, w, hw, hp⟩ := (mem_reported h2 _).1
      (List.getElem_mem (by omega : i < (reported W).length))
    intro b hbm
    exact h2 w hw b (hp.subset hbm)
  rw [hrep, iteratedSums_simple, hal, ← word_rowFor expf hk hadm.data hadm.dims hlook elOf alOf
    prefixes[i].els bs hb.1.2.2 (hadm'.letters _ (List.getElem_mem hi))
    (hadm'.fits _ (List.getElem_mem hi)) hb.2]
  apply List.ext_getElem <;> simp

/-- **C19**: without weighting, the EXTENDED result for `words` is the SINGLE result for the list of words
`prefixes` named by the labels, in the same order.  `elOf b` is the exponent vector written in block `b`; both
lists of words have the letters their strings say. -/
theorem C19_extended_eq_single (expf : R → R) {k : SemiringKind} (hk : k ≠ .arcticArgmax)
    {X : Data R} {D n : ℕ} {words prefixes : List (SWord R)}
    (hadm : Admissible X D n words) (hadm' : Admissible X D n prefixes) (elOf : PStr → List ℤ)
    (hsp : ∀ w ∈ words, ∃ bs, Spells elOf w bs) (hsp' : ∀ v ∈ prefixes, ∃ bs, Spells elOf v bs)
    (hcount : (⟨words.map .simple, .extended, k, none⟩ : ISSConf R).nIteratedSums
      = .ok prefixes.length)
    (hlab : ∀ i (h : i < prefixes.length),
      (⟨words.map .simple, .extended, k, none⟩ : ISSConf R).label i
        = .ok (prefixes[i].name ++ (⟨words.map .simple, .extended, k, none⟩ : ISSConf R).suffix)) :
    (⟨words.map .simple, .extended, k, none⟩ : ISSConf R).transform expf X
      = (⟨prefixes.map .simple, .single, k, none⟩ : ISSConf R).transform expf X := by
  have hz : ∀ (w : SWord R) bs, Spells elOf w bs →
      usedAlpha none w = tab bs.length fun q => (fun _ => (0 : R)) (bs.take (q + 1)) := by
    intro w bs h
    have : bs.length = w.els.length := h.1.2.2
    rw [this]; simp [usedAlpha]
  refine ext_eq_single expf hk none hadm hadm' (by simp) elOf (fun _ => 0) ?_ ?_ hcount hlab
  · intro w hw; obtain ⟨bs, hb⟩ := hsp w hw; exact ⟨bs, hb, hz w bs hb⟩
  · intro w hw; obtain ⟨bs, hb⟩ := hsp' w hw; exact ⟨bs, hb, hz w bs hb⟩

/-- **C21** (partial): with a weighting, EXTENDED equals SINGLE on the prefixes with their `alpha`s provided
that equal beginnings carry equal `alpha`s (`alOf s` is the `alpha` of the last extended letter of the
beginning `s`).  Missing: without that proviso the claim is false, see `C21_counterexample`. -/
theorem C21_weighted_extended_partial (expf : R → R) {k : SemiringKind} (hk : k ≠ .arcticArgmax)
    (wt : Weighting R) {X : Data R} {D n : ℕ} {words prefixes : List (SWord R)}
    (hadm : Admissible X D n words) (hadm' : Admissible X D n prefixes) (hlook : LookupFor wt X n)
    (elOf : PStr → List ℤ) (alOf : List PStr → R)
    (hsp : ∀ w ∈ words, ∃ bs, Spells elOf w bs ∧
      w.getAlpha = tab bs.length fun q => alOf (bs.take (q + 1)))
    (hsp' : ∀ v ∈ prefixes, ∃ bs, Spells elOf v bs ∧
      v.getAlpha = tab bs.length fun q => alOf (bs.take (q + 1)))
    (hcount : (⟨words.map .simple, .extended, k, some wt⟩ : ISSConf R).nIteratedSums
      = .ok prefixes.length)
    (hlab : ∀ i (h : i < prefixes.length),
      (⟨words.map .simple, .extended, k, some wt⟩ : ISSConf R).label i
        = .ok (prefixes[i].name
          ++ (⟨words.map .simple, .extended, k, some wt⟩ : ISSConf R).suffix)) :
    (⟨words.map .simple, .extended, k, some wt⟩ : ISSConf R).transform expf X
      = (⟨prefixes.map .simple, .single, k, some wt⟩ : ISSConf R).transform expf X :=
  ext_eq_single expf hk (some wt) hadm hadm' (by rintro g ⟨⟩; exact hlook) elOf alOf hsp hsp' hcount hlab

/-! ### the hypotheses of C19 are satisfiable, and C21 fails -/

private def exElOf (b : PStr) : List ℤ := [b.count '1', b.count '2']

private def exW : List (SWord ℚ) :=
  [⟨[[1, 0], [1, 1]], 2, "[1][12]".toList, none⟩, ⟨[[1, 0], [0, 1]], 2, "[1][2]".toList, none⟩]
private def exP : List (SWord ℚ) :=
  [⟨[[1]], 1, "[1]".toList, none⟩, ⟨[[1, 0], [1, 1]], 2, "[1][12]".toList, none⟩,
   ⟨[[1, 0], [0, 1]], 2, "[1][2]".toList, none⟩]

private theorem sameLetter_of {a b : List ℤ} (h : a ++ List.replicate (b.length - a.length) 0 = b) :
    SameLetter a b := by
  intro d
  rw [← h]
  simp only [List.getD_eq_getElem?_getD]
  rcases Nat.lt_or_ge d a.length with hd | hd
  · rw [List.getElem?_append_left hd]
  · rw [List.getElem?_append_right hd, List.getElem?_replicate, List.getElem?_eq_none hd]
    split <;> rfl

example : (∀ w ∈ exW, ∃ bs, Spells exElOf w bs) ∧ (∀ v ∈ exP, ∃ bs, Spells exElOf v bs) ∧
    Admissible exX 2 3 exW ∧ Admissible exX 2 3 exP ∧
    (⟨exW.map .simple, .extended, .reals, none⟩ : ISSConf ℚ).nIteratedSums = .ok exP.length ∧
    (∀ i (h : i < exP.length), (⟨exW.map .simple, .extended, .reals, none⟩ : ISSConf ℚ).label i
      = .ok (exP[i].name ++ (⟨exW.map .simple, .extended, .reals, none⟩ : ISSConf ℚ).suffix)) := by
  refine ⟨?_, ?_, ?_, ?_, by decide +kernel, by decide +kernel⟩
  · intro w hw
    simp only [exW, List.mem_cons, List.not_mem_nil, or_false] at hw
    rcases hw with rfl | rfl
    · refine ⟨["1".toList, "12".toList], ⟨by simp [BlocksOK, BracketFree], rfl, rfl⟩, ?_⟩
      intro k hk
      have : k = 0 ∨ k = 1 := by simp at hk; omega
      rcases this with rfl | rfl <;> exact sameLetter_of (by decide)
    · refine ⟨["1".toList, "2".toList], ⟨by simp [BlocksOK, BracketFree], rfl, rfl⟩, ?_⟩
      intro k hk
      have : k = 0 ∨ k = 1 := by simp at hk; omega
      rcases this with rfl | rfl <;> exact sameLetter_of (by decide)
  · intro w hw
    simp only [exP, List.mem_cons, List.not_mem_nil, or_false] at hw
    rcases hw with rfl | rfl | rfl
    · refine ⟨["1".toList], ⟨by simp [BlocksOK, BracketFree], rfl, rfl⟩, ?_⟩
      intro k hk
      have : k = 0 := by simp at hk; omega
      subst this; exact sameLetter_of (by decide)
    · refine ⟨["1".toList, "12".toList], ⟨by simp [BlocksOK, BracketFree], rfl, rfl⟩, ?_⟩
      intro k hk
      have : k = 0 ∨ k = 1 := by simp at hk; omega
      rcases this with rfl | rfl <;> exact sameLetter_of (by decide)
    · refine ⟨["1".toList, "2".toList], ⟨by simp [BlocksOK, BracketFree], rfl, rfl⟩, ?_⟩
      intro k hk
      have : k = 0 ∨ k = 1 := by simp at hk; omega
      rcases this with rfl | rfl <;> exact sameLetter_of (by decide)
  · exact ⟨by simp [exX, IsData, Rect], by decide, by simp [exW], by simp [exW], by simp [exW]⟩
  · exact ⟨by simp [exX, IsData, Rect], by decide, by simp [exP], by simp [exP], by simp [exP]⟩

/-- Two words `[1]` with `alpha` 0 and 1: EXTENDED returns one row, computed with the `alpha` of the first
word; the result for the second word's `alpha` (SINGLE mode) is not among the rows.  (Arctic semiring, lookup
`0, 1, 2`.) -/
theorem C21_counterexample :
    ∃ (words : List (SWord ℚ)) (wt : Weighting ℚ) (X : Data ℚ) (A B : Data ℚ),
      (∀ w ∈ words, w.name = "[1]".toList ∧ w.els = [[1]]) ∧
      (⟨words.map .simple, .extended, .arctic, some wt⟩ : ISSConf ℚ).transform id X = .ok A ∧
      (⟨words.map .simple, .single, .arctic, some wt⟩ : ISSConf ℚ).transform id X = .ok B ∧
      ∃ row ∈ B, row ∉ A := by
  refine ⟨[⟨[[1]], 1, "[1]".toList, some [0]⟩, ⟨[[1]], 1, "[1]".toList, some [1]⟩],
    ⟨true, fun X => X.map fun _ => [0, 1, 2], []⟩, [[[3, 2, 1]]], [[[3, 3, 3]]],
    [[[3, 3, 3]], [[3, 2, 1]]], by simp, by decide +kernel, by decide +kernel, [[3, 2, 1]], by simp,
    by decide +kernel⟩

/-! ## C20 -/

/-- **C20**, SINGLE mode: `label(i)` is the string of word `i` (plus the suffix for semiring and weighting),
row `i` of the transform is what an ISS with only this word returns, and larger indices are rejected. -/
theorem C20_label_names_row_single (expf : R → R) {k : SemiringKind} (hk : k ≠ .arcticArgmax)
    (wt : Option (Weighting R)) (words : List (IWord R)) (X : Data R) (i : ℕ) :
    let c : ISSConf R := ⟨words, .single, k, wt⟩
    (words.length ≤ i → c.label i = .error .indexError) ∧
    ∀ h : i < words.length, c.label i = .ok (words[i].str ++ c.suffix) ∧
      ∃ A r, c.transform expf X = .ok A ∧ A[i]? = some r ∧
        (⟨[words[i]], .single, k, wt⟩ : ISSConf R).transform expf X = .ok [r] := by
  intro c
  refine ⟨?_, ?_⟩
  · intro h
    rw [label_of (r := .error .indexError) (by simp [ISSConf.labelBase, c, h])]
    rfl
  · intro h
    refine ⟨?_, ?_⟩
    · rw [label_of (r := .ok words[i].str) (by simp [ISSConf.labelBase, c, h])]
      rfl
    · have hus : ∀ ws : List (IWord R), (⟨ws, .single, k, wt⟩ : ISSConf R).Usable :=
        fun ws h => absurd h hk
      have hrow : ∀ (ws : List (IWord R)) (i : ℕ) (w : IWord R),
          (⟨ws, .single, k, wt⟩ : ISSConf R).wordRows expf X i w
            = [(iteratedSums expf k X w 1 wt).map (fun a => a.getD 0 [])] := by
        intro ws i w
        unfold ISSConf.wordRows
        have : rowsOf k w 1 = 1 := by unfold rowsOf; cases k <;> simp_all
        simp only [ISSConf.depth, this]
        rfl
      have hne : words ≠ [] := by
        rintro rfl
        simp at h
      refine ⟨_, (iteratedSums expf k X words[i] 1 wt).map (fun a => a.getD 0 []),
        transform_eq expf (hus words) hne X, ?_, ?_⟩
      · rw [blockRows_flatten]
        simp only [hrow]
        have : ∀ ws : List (IWord R), (ws.mapIdx fun _ w => [(iteratedSums expf k X w 1 wt).map
            (fun a => a.getD 0 [])]).flatten
            = ws.map fun w => (iteratedSums expf k X w 1 wt).map (fun a => a.getD 0 []) := by
          intro ws
          induction ws with
          | nil => rfl
          | cons w ws ih => rw [List.mapIdx_cons, List.flatten_cons, ih]; rfl
        rw [this, List.getElem?_map, List.getElem?_eq_getElem h]
        rfl
      · rw [transform_eq expf (hus _) (by simp)]
        simp [ISSConf.blockRows, hrow]

/-- **C20**, EXTENDED mode (no weighting): if `label(i)` is the string of a word `v` (plus the suffix), then
row `i` of the transform is what a SINGLE-mode ISS with only the word `v` returns; every label of C18 is such
a string. -/
theorem C20_label_names_row_extended (expf : R → R) {k : SemiringKind} (hk : k ≠ .arcticArgmax)
    {X : Data R} {D n : ℕ} {words prefixes : List (SWord R)}
    (hadm : Admissible X D n words) (hadm' : Admissible X D n prefixes) (elOf : PStr → List ℤ)
    (hsp : ∀ w ∈ words, ∃ bs, Spells elOf w bs) (hsp' : ∀ v ∈ prefixes, ∃ bs, Spells elOf v bs)
    (hcount : (⟨words.map .simple, .extended, k, none⟩ : ISSConf R).nIteratedSums
      = .ok prefixes.length)
    (hlab : ∀ i (h : i < prefixes.length),
      (⟨words.map .simple, .extended, k, none⟩ : ISSConf R).label i
        = .ok (prefixes[i].name ++ (⟨words.map .simple, .extended, k, none⟩ : ISSConf R).suffix))
    (i : ℕ) (h : i < prefixes.length) :
    ∃ A r, (⟨words.map .simple, .extended, k, none⟩ : ISSConf R).transform expf X = .ok A ∧
      A[i]? = some r ∧
      (⟨[.simple prefixes[i]], .single, k, none⟩ : ISSConf R).transform expf X = .ok [r] := by
  rw [C19_extended_eq_single expf hk hadm hadm' elOf hsp hsp' hcount hlab]
  have := (C20_label_names_row_single expf hk none (prefixes.map .simple) X i).2 (by simpa using h)
  obtain ⟨_, A, r, h1, h2, h3⟩ := this
  refine ⟨A, r, h1, h2, ?_⟩
  simpa using h3

end Fruits
