import Verif.Props.Corb10
import Verif.Props.Fruit6

/-! # C137, C138: `decide_which_fruit` -/

namespace Fruits
set_option linter.unusedSectionVars false

variable {R P I W S V : Type} [Field R] [LinearOrder R] [IsStrictOrderedRing R] [FloorRing R]

/-! ### Specification -/

/-- `q` is the mean of the scores of `runs` runs on this split, each as if it were the first thing that happened in `w`. -/
def IsExperiment (K : Sem R P I W S V) (ρ : ℕ → Rng R) (clf : Classifier R V) (runs : ℕ) (w : World R P I W S) (f : ℕ)
    (part : Data R × Data R × List ℤ × List ℤ) (q : R) : Prop :=
  ∃ us : List R, us.length = runs ∧ q = us.sum / (runs : R) ∧
    ∀ u ∈ us, ∃ r, (fruitifyOnce K (fun j => ρ (r + (j - w.rnd))) clf f part.1 part.2.2.1 part.2.1 part.2.2.2 w).1 = .ok u

/-- `q` is the mean of the experiments with the splits number `c`, `c + 1`, ..., `c + nSplits - 1`. -/
def IsAccuracy (K : Sem R P I W S V) (ρ : ℕ → Rng R) (clf : Classifier R V) (runs nSplits : ℕ) (split : Splitter R) (vs : R) (X : Data R) (y : List ℤ)
    (w : World R P I W S) (f c : ℕ) (q : R) : Prop :=
  ∃ qs : List R, qs.length = nSplits ∧ q = qs.sum / (nSplits : R) ∧
    ∀ (j : ℕ) (hj : j < qs.length), ∃ part, split (c + j) vs X y = .ok part ∧ IsExperiment K ρ clf runs w f part qs[j]

/-! ### Classes -/

theorem mem_sortedClasses {y : List ℤ} {c : ℤ} : c ∈ sortedClasses y ↔ c ∈ y := by
  rw [sortedClasses, (List.mergeSort_perm _ _).mem_iff, List.mem_dedup]

theorem classCounts_length (y : List ℤ) : (classCounts y).length = y.dedup.length := by
  rw [classCounts, List.length_map, sortedClasses, List.length_mergeSort]

theorem countP_count (y : List ℤ) (c : ℤ) : y.countP (· = c) = y.count c := by
  rw [List.count]
  apply List.countP_congr
  intro x _
  simp

theorem classCounts_one (y : List ℤ) : 1 ≤ (classCounts y).countP (· = 1) ↔ ∃ c ∈ y, y.count c = 1 := by
  rw [Nat.succ_le_iff, List.countP_pos_iff, classCounts]
  constructor
  · rintro ⟨n, hn, h⟩
    obtain ⟨c, hc, rfl⟩ := List.mem_map.1 hn
    exact ⟨c, mem_sortedClasses.1 hc, by rw [← countP_count]; simpa using h⟩
  · rintro ⟨c, hc, h⟩
    exact ⟨1, List.mem_map.2 ⟨c, mem_sortedClasses.2 hc, by rw [countP_count, h]⟩, by simp⟩

/-! ### argmax -/

theorem argmaxLoop_spec : ∀ (xs : List R) (i best : ℕ) (v : R) (all : List R), best < i → all[best]? = some v →
    (∀ j < i, ∀ x, all[j]? = some x → x ≤ v) → (∀ j < best, ∀ x, all[j]? = some x → x < v) → all.drop i = xs →
    ∃ m, all[flArgmaxLoop (xs.map .finite) i best (.finite v)]? = some m ∧ (∀ x ∈ all, x ≤ m) ∧
      ∀ j < flArgmaxLoop (xs.map .finite) i best (.finite v), ∀ x, all[j]? = some x → x < m
  | [], i, best, v, all, hb, hv, h1, h2, hd => by
    refine ⟨v, hv, fun x hx => ?_, h2⟩
    obtain ⟨j, hj, rfl⟩ := List.getElem_of_mem hx
    have := List.drop_eq_nil_iff.1 hd
    exact h1 j (by omega) _ (List.getElem?_eq_getElem hj)
  | x :: xs, i, best, v, all, hb, hv, h1, h2, hd => by
    have hi : all[i]? = some x := by
      have : (all.drop i)[0]? = some x := by rw [hd]; rfl
      simpa using this
    have hd' : all.drop (i + 1) = xs := by rw [← List.drop_drop, hd]; rfl
    simp only [List.map_cons, flArgmaxLoop, reduceCtorEq, if_false, flGe, decide_eq_true_eq]
    split
    · rename_i hx
      refine argmaxLoop_spec xs (i + 1) best v all (by omega) hv (fun j hj z hz => ?_) h2 hd'
      rcases Nat.lt_succ_iff_lt_or_eq.1 hj with hj | rfl
      · exact h1 j hj z hz
      · rw [hi] at hz; cases hz; exact hx
    · rename_i hx
      have hx := not_le.1 hx
      refine argmaxLoop_spec xs (i + 1) i x all (by omega) hi (fun j hj z hz => ?_) (fun j hj z hz => ?_) hd'
      · rcases Nat.lt_succ_iff_lt_or_eq.1 hj with hj | rfl
        · exact (h1 j hj z hz).trans hx.le
        · rw [hi] at hz; cases hz; exact le_rfl
      · exact (h1 j hj z hz).trans_lt hx

/-- `np.argmax` of numbers: the first position of the largest one. -/
theorem npArgmax_spec {ms : List R} {k : ℕ} (h : npArgmax (ms.map .finite) = .ok k) :
    ∃ m, ms[k]? = some m ∧ (∀ x ∈ ms, x ≤ m) ∧ ∀ j < k, ∀ x, ms[j]? = some x → x < m := by
  cases ms with
  | nil => simp [npArgmax] at h
  | cons x xs =>
    simp only [npArgmax, List.map_cons, Except.ok.injEq] at h
    subst h
    refine argmaxLoop_spec xs 1 0 x (x :: xs) one_pos rfl (fun j hj z hz => ?_) (fun j hj => by omega) rfl
    obtain rfl : j = 0 := by omega
    simp only [List.getElem?_cons_zero, Option.some.injEq] at hz
    exact hz ▸ le_rfl

/-! ### Scores -/

theorem fruitify_fits {K : Sem R P I W S V} {ρ : ℕ → Rng R} (clf : Classifier R V) (n : ℕ) {f : ℕ} (X Z : Data R) (y z : List ℤ) {w : World R P I W S}
    (hw : w.WF) (hf : f < w.nFruit) : OnlyFits K ρ w (fruitify K ρ clf n f X y Z z w).2 := by
  have h := runs_fits (K := K) (ρ := ρ) (clf := clf) (X := X) (Z := Z) (y := y) (z := z) n w hw hf
  rw [fruitify]
  rcases hr : fruitifyRuns K ρ clf f X y Z z n w with ⟨e | as, v⟩
  · rw [hr] at h; exact h
  · rw [hr] at h; exact h

theorem fruitify_experiment {K : Sem R P I W S V} (hC : K.CountsRight) (hN : K.KeepsN) (hR : K.Refits) {ρ : ℕ → Rng R}
    {w₀ w v v' : World R P I W S} {ops : List (Op R P I W S)} (h0 : w₀.Empty) (before : Hist K ρ w₀ ops w) (hv : OnlyFits K ρ w v) {f : ℕ} (hf : f < w.nFruit)
    (clf : Classifier R V) {runs : ℕ} (hn : 0 < runs) {X Z : Data R} {y z : List ℤ} {a : Fl R} (h : fruitify K ρ clf runs f X y Z z v = (.ok a, v')) :
    ∃ q, a = .finite q ∧ IsExperiment K ρ clf runs w f (X, Z, y, z) q := by
  rw [fruitify] at h
  rcases hr : fruitifyRuns K ρ clf f X y Z z runs v with ⟨e | as, u⟩
  · rw [hr] at h; simp at h
  rw [hr] at h
  simp only [Prod.mk.injEq, Except.ok.injEq] at h
  obtain ⟨rfl, _⟩ := h
  obtain ⟨h1, h2⟩ := runs_alike hC hN hR h0 before hf clf X Z y z runs v hv as u hr
  rw [npMean, if_neg (by rintro rfl; simp at h1; omega), h1]
  exact ⟨_, rfl, as, h1, rfl, h2⟩

theorem scoresOf_spec {K : Sem R P I W S V} (hC : K.CountsRight) (hN : K.KeepsN) (hR : K.Refits) {ρ : ℕ → Rng R}
    {w₀ w : World R P I W S} {ops : List (Op R P I W S)} (h0 : w₀.Empty) (before : Hist K ρ w₀ ops w) {f : ℕ} (hf : f < w.nFruit)
    (clf : Classifier R V) {runs : ℕ} (hn : 0 < runs) (split : Splitter R) (vs : R) (X : Data R) (y : List ℤ) :
    ∀ (n c : ℕ) (v : World R P I W S), OnlyFits K ρ w v → ∀ as v', scoresOf K ρ clf runs split vs X y f n c v = (.ok as, v') →
      OnlyFits K ρ w v' ∧ ∃ qs : List R, as = qs.map .finite ∧ qs.length = n ∧
        ∀ (j : ℕ) (hj : j < qs.length), ∃ part, split (c + j) vs X y = .ok part ∧ IsExperiment K ρ clf runs w f part qs[j]
  | 0, c, v, hv, as, v', h => by
    simp only [scoresOf, Prod.mk.injEq, Except.ok.injEq] at h
    obtain ⟨rfl, rfl⟩ := h
    exact ⟨hv, [], rfl, rfl, fun j hj => absurd hj (Nat.not_lt_zero _)⟩
  | n + 1, c, v, hv, as, v', h => by
    rw [scoresOf] at h
    rcases hs : split c vs X y with e | ⟨xtr, xte, ytr, yte⟩
    · rw [hs] at h; simp at h
    rw [hs] at h
    simp only at h
    rcases hm : fruitify K ρ clf runs f xtr ytr xte yte v with ⟨e | a, v1⟩
    · rw [hm] at h; simp at h
    rw [hm] at h
    simp only at h
    rcases hr : scoresOf K ρ clf runs split vs X y f n (c + 1) v1 with ⟨e | bs, v2⟩
    · rw [hr] at h; simp at h
    rw [hr] at h
    simp only [Prod.mk.injEq, Except.ok.injEq] at h
    obtain ⟨rfl, rfl⟩ := h
    obtain ⟨k1, k2, -, -⟩ := hv.keeps (before.wf (World.WF.empty h0))
    have hv1 := hv.trans (fruitify_fits (K := K) (ρ := ρ) clf runs xtr xte ytr yte k1 (hf.trans_le k2.fruit))
    rw [hm] at hv1
    obtain ⟨q, rfl, hq⟩ := fruitify_experiment hC hN hR h0 before hv hf clf hn hm
    obtain ⟨g1, qs, rfl, g3, g4⟩ := scoresOf_spec hC hN hR h0 before hf clf hn split vs X y n (c + 1) v1 hv1 bs v2 hr
    refine ⟨g1, q :: qs, rfl, by simp [g3], fun j hj => ?_⟩
    cases j with
    | zero => exact ⟨_, hs, hq⟩
    | succ j =>
      obtain ⟨part, e1, e2⟩ := g4 j (by simpa using hj)
      exact ⟨part, by rw [← e1]; congr 1; omega, e2⟩

theorem allFinite_map : ∀ l : List R, allFinite (l.map .finite) = some l
  | [] => rfl
  | x :: l => by simp [allFinite, allFinite_map l]

theorem accuracies_spec {K : Sem R P I W S V} (hC : K.CountsRight) (hN : K.KeepsN) (hR : K.Refits) {ρ : ℕ → Rng R}
    {w₀ w : World R P I W S} {ops : List (Op R P I W S)} (h0 : w₀.Empty) (before : Hist K ρ w₀ ops w)
    (clf : Classifier R V) {runs nSplits : ℕ} (hn : 0 < runs) (hs : 0 < nSplits) (split : Splitter R) (vs : R) (X : Data R) (y : List ℤ) :
    ∀ (choices : List Choice), (∀ ch ∈ choices, ch.experiment < w.nFruit) → ∀ (c : ℕ) (v : World R P I W S), OnlyFits K ρ w v →
      ∀ as v', accuracies K ρ clf runs nSplits split vs X y choices c v = (.ok as, v') →
      OnlyFits K ρ w v' ∧ ∃ ms : List R, as = ms.map .finite ∧ ms.length = choices.length ∧
        ∀ (i : ℕ) (ch : Choice) (m : R), choices[i]? = some ch → ms[i]? = some m →
          IsAccuracy K ρ clf runs nSplits split vs X y w ch.experiment (c + i * nSplits) m
  | [], _, c, v, hv, as, v', h => by
    simp only [accuracies, Prod.mk.injEq, Except.ok.injEq] at h
    obtain ⟨rfl, rfl⟩ := h
    exact ⟨hv, [], rfl, rfl, by simp⟩
  | ch :: chs, hch, c, v, hv, as, v', h => by
    rw [accuracies] at h
    rcases hm : scoresOf K ρ clf runs split vs X y ch.experiment nSplits c v with ⟨e | bs, v1⟩
    · rw [hm] at h; simp at h
    rw [hm] at h
    simp only at h
    rcases hr : accuracies K ρ clf runs nSplits split vs X y chs (c + nSplits) v1 with ⟨e | cs, v2⟩
    · rw [hr] at h; simp at h
    rw [hr] at h
    simp only [Prod.mk.injEq, Except.ok.injEq] at h
    obtain ⟨rfl, rfl⟩ := h
    obtain ⟨hv1, qs, rfl, q2, q3⟩ := scoresOf_spec hC hN hR h0 before (hch ch (by simp)) clf hn split vs X y nSplits c v hv bs v1 hm
    obtain ⟨g1, ms, rfl, g3, g4⟩ := accuracies_spec hC hN hR h0 before clf hn hs split vs X y chs (fun x hx => hch x (by simp [hx])) (c + nSplits) v1 hv1 cs v2 hr
    have hmean : meanScore (qs.map .finite) = .finite (qs.sum / (nSplits : R)) := by
      rw [meanScore, allFinite_map]
      simp only [npMean]
      rw [if_neg (by rintro rfl; simp at q2; omega), q2]
    refine ⟨g1, qs.sum / (nSplits : R) :: ms, by rw [hmean]; rfl, by simp [g3], fun i ch' m h1 h2 => ?_⟩
    cases i with
    | zero =>
      simp only [List.getElem?_cons_zero, Option.some.injEq] at h1 h2
      subst h1 h2
      exact ⟨qs, q2, rfl, by simpa using q3⟩
    | succ i =>
      have := g4 i ch' m (by simpa using h1) (by simpa using h2)
      rw [show c + (i + 1) * nSplits = c + nSplits + i * nSplits by ring]
      exact this

/-- **C137.**  If every class has at least two samples, the function made by `decide_which_fruit` returns an unfitted deep copy of a choice: of
the first of those with the largest mean accuracy.  The accuracy of a choice is the mean over its `nSplits` splits and over `runs`
runs; each of these has the score that it would have if nothing else had been tried before. -/
theorem C137_choose {K : Sem R P I W S V} (hC : K.CountsRight) (hN : K.KeepsN) (hR : K.Refits) {ρ : ℕ → Rng R}
    {w₀ w w' : World R P I W S} {ops : List (Op R P I W S)} (h0 : w₀.Empty) (before : Hist K ρ w₀ ops w)
    (clf : Classifier R V) {runs nSplits : ℕ} (hn : 0 < runs) (hs : 0 < nSplits) (size : R) (split : Splitter R) {choices : List Choice}
    (hch : ∀ ch ∈ choices, ch.experiment < w.nFruit ∧ ch.final < w.nFruit) (X : Data R) (y : List ℤ) (hy : ∀ c ∈ y, 2 ≤ y.count c) {g : ℕ}
    (h : chooseFruit K ρ clf runs nSplits size split choices X y w = (.ok g, w')) :
    ∃ (ms : List R) (k : ℕ) (ch : Choice) (m : R) (w₁ : World R P I W S), ms.length = choices.length ∧
      (∀ (i : ℕ) (ch : Choice) (m : R), choices[i]? = some ch → ms[i]? = some m →
        IsAccuracy K ρ clf runs nSplits split (max size ((y.dedup.length : R) / (X.length : R))) X y w ch.experiment (i * nSplits) m) ∧
      choices[k]? = some ch ∧ ms[k]? = some m ∧ (∀ x ∈ ms, x ≤ m) ∧ (∀ j < k, ∀ x, ms[j]? = some x → x < m) ∧
      OnlyFits K ρ w w₁ ∧ fruitDeepcopy K ch.final w₁ = (.ok g, w') ∧ DeepFruitOf K w₁ ch.final w' g := by
  have hw := before.wf (World.WF.empty h0)
  rw [chooseFruit, if_neg (by
    rw [classCounts_one]
    rintro ⟨c, hc, h1⟩
    have := hy c hc
    omega)] at h
  rw [validationSize, classCounts_length] at h
  rcases hm : accuracies K ρ clf runs nSplits split (max size ((y.dedup.length : R) / (X.length : R))) X y choices 0 w with ⟨e | as, w1⟩
  · rw [hm] at h; simp at h
  rw [hm] at h
  simp only at h
  obtain ⟨g1, ms, rfl, g3, g4⟩ := accuracies_spec hC hN hR h0 before clf hn hs split _ X y choices (fun ch hc => (hch ch hc).1) 0 w (OnlyFits.refl K ρ w) as w1 hm
  rcases ha : npArgmax (ms.map Fl.finite) with e | k
  · rw [ha] at h; simp at h
  rw [ha] at h
  simp only at h
  rcases hk : choices[k]? with _ | ch
  · rw [hk] at h; simp at h
  rw [hk] at h
  simp only at h
  obtain ⟨m, e1, e2, e3⟩ := npArgmax_spec ha
  obtain ⟨k1, k2, -, -⟩ := g1.keeps hw
  refine ⟨ms, k, ch, m, w1, g3, fun i ch m a b => ?_, hk, e1, e2, e3, g1, h, fruitDeepcopy_spec k1 ((hch ch ?_).2.trans_le k2.fruit) h⟩
  · have := g4 i ch m a b
    rwa [Nat.zero_add] at this
  · exact List.mem_of_getElem? hk

/-- **C137**: a class with a single sample makes it return a deep copy of the first choice; nothing is fitted. -/
theorem C137_single (K : Sem R P I W S V) (ρ : ℕ → Rng R) (clf : Classifier R V) (runs nSplits : ℕ) (size : R) (split : Splitter R) (ch : Choice)
    (chs : List Choice) (X : Data R) {y : List ℤ} (hy : ∃ c ∈ y, y.count c = 1) (w : World R P I W S) :
    chooseFruit K ρ clf runs nSplits size split (ch :: chs) X y w = fruitDeepcopy K ch.final w := by
  rw [chooseFruit, if_pos ((classCounts_one y).2 hy)]
  rfl

/-- **C137**: without choices the function raises. -/
theorem C137_none (K : Sem R P I W S V) (ρ : ℕ → Rng R) (clf : Classifier R V) (runs nSplits : ℕ) (size : R) (split : Splitter R) (X : Data R) (y : List ℤ)
    (w : World R P I W S) : ∃ e, chooseFruit K ρ clf runs nSplits size split [] X y w = (.error e, w) := by
  rw [chooseFruit]
  split
  · exact ⟨_, rfl⟩
  · exact ⟨_, rfl⟩

/-! ### C138: the size of the validation set -/

/-- What `train_test_split` with a fraction as `test_size` and `stratify` needs: a fraction between 0 and 1, two samples of every class, and at
least as many samples as classes in each of the two parts. -/
structure CanStratify (vs : R) (y : List ℤ) : Prop where
  fraction : 0 < vs ∧ vs < 1
  pairs : ∀ c ∈ y, 2 ≤ y.count c
  test : (y.dedup.length : ℤ) ≤ ⌈vs * (y.length : R)⌉
  train : (y.dedup.length : ℤ) ≤ (y.length : ℤ) - ⌈vs * (y.length : R)⌉

/-- If every class has two samples, there are at least twice as many samples as classes. -/
theorem two_per_class {y : List ℤ} (hy : ∀ c ∈ y, 2 ≤ y.count c) : 2 * y.dedup.length ≤ y.length := by
  have h1 : y.length = ∑ c ∈ y.toFinset, y.count c := (List.sum_toFinset_count_eq_length y).symm
  have h2 : ∑ c ∈ y.toFinset, 2 ≤ ∑ c ∈ y.toFinset, y.count c := Finset.sum_le_sum fun c hc => hy c (List.mem_toFinset.1 hc)
  rw [Finset.sum_const, List.card_toFinset, smul_eq_mul] at h2
  omega

/-- **C138**, exactly: if every class has two samples, the split that `decide_which_fruit` asks for exists if and only if the given
`validation_size` leaves a sample of each class for training. -/
theorem C138_iff {y : List ℤ} (hne : y ≠ []) (hy : ∀ c ∈ y, 2 ≤ y.count c) (size : R) :
    CanStratify (validationSize size y y.length) y ↔ size ≤ 1 - (y.dedup.length : R) / (y.length : R) := by
  have hm : 0 < (y.length : R) := by exact_mod_cast List.length_pos_of_ne_nil hne
  have hk : 0 < y.dedup.length := List.length_pos_of_ne_nil (by simpa using hne)
  have hk' : 0 < (y.dedup.length : R) := by exact_mod_cast hk
  have h2 := two_per_class hy
  have h2' : 2 * (y.dedup.length : R) ≤ (y.length : R) := by exact_mod_cast h2
  have hq : (y.dedup.length : R) / (y.length : R) * (y.length : R) = (y.dedup.length : R) := div_mul_cancel₀ _ hm.ne'
  have hq0 : 0 < (y.dedup.length : R) / (y.length : R) := div_pos hk' hm
  rw [validationSize, classCounts_length]
  set q := (y.dedup.length : R) / (y.length : R) with hqd
  constructor
  · intro h
    have ht := h.train
    have h1 : ⌈max size q * (y.length : R)⌉ ≤ (y.length : ℤ) - (y.dedup.length : ℤ) := by omega
    rw [Int.ceil_le] at h1
    push_cast at h1
    have h3 : size * (y.length : R) ≤ max size q * (y.length : R) := mul_le_mul_of_nonneg_right (le_max_left _ _) hm.le
    have h4 : size * (y.length : R) ≤ (1 - q) * (y.length : R) := by rw [sub_mul, hq, one_mul]; exact h3.trans h1
    exact le_of_mul_le_mul_right h4 hm
  · intro h
    have hmax : max size q ≤ 1 - q := by
      refine max_le h ?_
      have : (2 * q) * (y.length : R) ≤ 1 * (y.length : R) := by rw [mul_assoc, hq, one_mul]; exact h2'
      have := le_of_mul_le_mul_right this hm
      linarith
    refine ⟨⟨hq0.trans_le (le_max_right _ _), by linarith⟩, hy, ?_, ?_⟩
    · rw [← Int.cast_le (R := R)]
      have : q * (y.length : R) ≤ max size q * (y.length : R) := mul_le_mul_of_nonneg_right (le_max_right _ _) hm.le
      push_cast
      rw [hq] at this
      exact this.trans (Int.le_ceil _)
    · have : ⌈max size q * (y.length : R)⌉ ≤ (y.length : ℤ) - (y.dedup.length : ℤ) := by
        rw [Int.ceil_le]
        push_cast
        have := mul_le_mul_of_nonneg_right hmax hm.le
        rwa [sub_mul, hq, one_mul] at this
      omega

/-- **C138** for `validation_size` of at most one half (the default is 0.2).  Missing: larger sizes, for which `C138_false` is a counterexample. -/
theorem C138_stratified_partial {y : List ℤ} (hne : y ≠ []) (hy : ∀ c ∈ y, 2 ≤ y.count c) {size : R} (hs : size ≤ 1 / 2) :
    CanStratify (validationSize size y y.length) y := by
  rw [C138_iff hne hy]
  have hm : 0 < (y.length : R) := by exact_mod_cast List.length_pos_of_ne_nil hne
  have h2' : 2 * (y.dedup.length : R) ≤ (y.length : R) := by exact_mod_cast two_per_class hy
  have : (y.dedup.length : R) / (y.length : R) ≤ 1 / 2 := by
    rw [div_le_div_iff₀ hm (by norm_num)]; linarith
  linarith

/-- **C138**, what is false: for ten samples of two classes `validation_size=0.9` leaves one sample for training; `train_test_split` raises. -/
theorem C138_false : let y : List ℤ := [1, 1, 1, 1, 1, 2, 2, 2, 2, 2]
    (∀ c ∈ y, 2 ≤ y.count c) ∧ ¬ CanStratify (validationSize (9 / 10 : ℚ) y y.length) y := by
  intro y
  have h : ∀ c ∈ y, 2 ≤ y.count c := by decide
  refine ⟨h, fun hc => ?_⟩
  rw [C138_iff (by decide) h] at hc
  revert hc
  decide +kernel

/-- The hypotheses of `C138_stratified_partial` hold for nine samples of three classes. -/
example : CanStratify (validationSize (1 / 5 : ℚ) [1, 1, 2, 2, 3, 3, 3, 3, 3] 9) [1, 1, 2, 2, 3, 3, 3, 3, 3] :=
  C138_stratified_partial (by decide) (by decide) (by decide +kernel)

end Fruits
