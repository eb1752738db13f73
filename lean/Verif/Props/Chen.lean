import Verif.Props.IteratedSums

/-! # C146: the iterated sums of a series are determined by those of its parts (Chen's identity) -/

namespace Fruits
set_option linter.unusedSectionVars false

variable {R : Type} [Field R] [LinearOrder R] [IsStrictOrderedRing R] [FloorRing R]

/-! ## Specification -/

/-- Two datasets with the same number of series and dimensions, one after the other in time. -/
def glue (A B : Data R) : Data R := List.zipWith (List.zipWith (· ++ ·)) A B

/-- The value at time `t` of the iterated sum of `w` that `ISS([w], semiring=k).transform(X)` returns for series `j`; the empty word has
the neutral value `one`. -/
def issVal (expf : R → R) (k : SemiringKind) (one : R) (X : Data R) (w : SWord R) (j t : ℕ) : R :=
  if w.els = [] then one else
    match (⟨[.simple w], .single, k, none⟩ : ISSConf R).transform expf X with
    | .ok A => ((A.getD 0 []).getD j []).getD t one
    | .error _ => one

/-- The word of the first `q` extended letters. -/
def wordPrefix (q : ℕ) (w : SWord R) : SWord R := { w with els := w.els.take q }

/-- The word without the first `q` extended letters. -/
def wordSuffix (q : ℕ) (w : SWord R) : SWord R := { w with els := w.els.drop q }

/-! ## Splitting sums and maxima over increasing tuples -/

theorem incSum_split (c : ℕ → ℕ → R) (p a n : ℕ) :
    incSum c p (a + n) = ∑ q ∈ Finset.range (p + 1), incSum c q a * incSum (fun j t => c (q + j) (a + t)) (p - q) n := by
  induction p generalizing n with
  | zero => simp
  | succ p ih =>
    rw [incSum_succ, Finset.sum_range_add, ← incSum_succ, Finset.sum_range_succ _ (p + 1)]
    rw [Nat.sub_self, incSum_zero, mul_one, add_comm]
    congr 1
    have : ∀ s, incSum c p (a + s) * c p (a + s)
        = ∑ q ∈ Finset.range (p + 1), incSum c q a * (incSum (fun j t => c (q + j) (a + t)) (p - q) s * c p (a + s)) := by
      intro s
      rw [ih, Finset.sum_mul]
      exact Finset.sum_congr rfl fun q _ => by ring
    rw [Finset.sum_congr rfl fun s _ => this s, Finset.sum_comm]
    refine Finset.sum_congr rfl fun q hq => ?_
    have hq' : q ≤ p := by have := Finset.mem_range.1 hq; omega
    rw [← Finset.mul_sum, show p + 1 - q = (p - q) + 1 by omega, incSum_succ]
    congr 1
    refine Finset.sum_congr rfl fun s _ => ?_
    rw [show q + (p - q) = p by omega]

/-- The same for chained maxima: `op` is associative with unit `b` and monotone on the values that satisfy `N`. -/
theorem chainMax_split {op : R → R → R} {b : R} {N : R → Prop} (hassoc : ∀ x y z, op (op x y) z = op x (op y z)) (hb1 : ∀ x, op x b = x)
    (hbN : N b) (hopN : ∀ x y, N x → N y → N (op x y)) (hr : ∀ x y z, N z → x ≤ y → op x z ≤ op y z) (hl : ∀ x y z, N z → x ≤ y → op z x ≤ op z y)
    (c : ℕ → ℕ → R) (hc : ∀ j t, N (c j t)) (p a n : ℕ) :
    IsGreatest {v | ∃ q ≤ p, v = op (chainMax op b c q a) (chainMax op b (fun j t => c (q + j) (a + 1 + t)) (p - q) n)} (chainMax op b c p (a + 1 + n)) := by
  have hN : ∀ q t, N (chainMax op b c q t) := by
    intro q
    induction q with
    | zero => intro t; exact hbN
    | succ q ih =>
      intro t
      obtain ⟨⟨s, _, hv⟩, _⟩ := runMax_isGreatest (fun s => op (chainMax op b c q s) (c q s)) t
      rw [chainMax, hv]
      exact hopN _ _ (ih s) (hc q s)
  induction p generalizing n with
  | zero =>
    refine ⟨⟨0, le_rfl, ?_⟩, ?_⟩
    · simp [chainMax, hb1]
    · rintro v ⟨q, hq, rfl⟩
      obtain rfl : q = 0 := by omega
      simp [chainMax, hb1]
  | succ p ih =>
    have hub : ∀ q ≤ p + 1, op (chainMax op b c q a) (chainMax op b (fun j t => c (q + j) (a + 1 + t)) (p + 1 - q) n) ≤ chainMax op b c (p + 1) (a + 1 + n) := by
      intro q hq
      rcases Nat.lt_or_ge p q with h | h
      · obtain rfl : q = p + 1 := by omega
        rw [Nat.sub_self, chainMax, chainMax, chainMax, hb1]
        exact runMax_mono _ (by omega)
      · rw [show p + 1 - q = (p - q) + 1 by omega, chainMax.eq_2 op b (fun j t => c (q + j) (a + 1 + t))]
        obtain ⟨⟨s, hs, hv⟩, _⟩ := runMax_isGreatest (fun s => op (chainMax op b (fun j t => c (q + j) (a + 1 + t)) (p - q) s) (c (q + (p - q)) (a + 1 + s))) n
        rw [hv, ← hassoc, show q + (p - q) = p by omega, chainMax.eq_2 op b c]
        refine le_trans (hr _ _ _ (hc _ _) ((ih s).2 ⟨q, h, rfl⟩)) ?_
        exact le_runMax (fun s => op (chainMax op b c p s) (c p s)) (by omega : a + 1 + s ≤ a + 1 + n)
    refine ⟨?_, ?_⟩
    · obtain ⟨⟨s, hs, hv⟩, _⟩ := runMax_isGreatest (fun s => op (chainMax op b c p s) (c p s)) (a + 1 + n)
      rw [← chainMax.eq_2 op b c] at hv
      rcases Nat.lt_or_ge a s with h | h
      · obtain ⟨s', rfl⟩ := Nat.exists_eq_add_of_le (show a + 1 ≤ s by omega)
        obtain ⟨⟨q, hq, hv'⟩, _⟩ := ih s'
        refine ⟨q, by omega, le_antisymm ?_ (hub q (by omega))⟩
        rw [hv, hv', hassoc, show p + 1 - q = (p - q) + 1 by omega, chainMax.eq_2 op b (fun j t => c (q + j) (a + 1 + t))]
        refine hl _ _ _ (hN _ _) ?_
        have := le_runMax (fun s => op (chainMax op b (fun j t => c (q + j) (a + 1 + t)) (p - q) s) (c (q + (p - q)) (a + 1 + s))) (show s' ≤ n by omega)
        simpa only [show q + (p - q) = p by omega] using this
      · refine ⟨p + 1, le_rfl, le_antisymm ?_ (hub _ le_rfl)⟩
        rw [Nat.sub_self, chainMax.eq_1, hb1, hv, chainMax]
        exact le_runMax (fun s => op (chainMax op b c p s) (c p s)) h
    · rintro v ⟨q, hq, rfl⟩
      exact hub q hq

/-! ## The values in terms of the letters -/

private theorem admissible_one {X : Data R} {D n : ℕ} (hX : IsData X D n) (hD : 0 < D) {w : SWord R} (hw : w.els ≠ [])
    (hf : ∀ el ∈ w.els, el.length ≤ D) : Admissible X D n [w] := ⟨hX, hD, by simp, by simpa using hw, by simpa using hf⟩

private theorem getD_lt {α : Type} {l : List α} (d : α) {k : ℕ} (h : k < l.length) : l.getD k d = l[k] := by simp [List.getD, h]

theorem issVal_reals {expf : R → R} (hexp : ExpLike expf) {X : Data R} {D n : ℕ} (hX : IsData X D n) (hD : 0 < D) {w : SWord R}
    (hf : ∀ el ∈ w.els, el.length ≤ D) (hdiv : NoZeroDivision X n [w]) {j t : ℕ} (hj : j < X.length) (ht : t < n) :
    issVal expf .reals 1 X w j t = incSum (fun k t => monomial (X.getD j []) (w.els.getD k []) t) w.els.length (t + 1) := by
  by_cases hw : w.els = []
  · rw [issVal, if_pos hw, hw, List.length_nil, incSum_zero]
  rw [issVal, if_neg hw]
  have := C01_reals_iss hexp (admissible_one hX hD hw hf) hdiv
  simp only [List.map_cons, List.map_nil] at this
  rw [this]
  simp only [List.getD_cons_zero]
  rw [getD_lt ([] : List R) (by simpa using hj), List.getElem_map, tab_getD _ _ _ _ ht, incSum, getD_lt _ hj]
  refine Finset.sum_congr rfl fun i _ => Finset.prod_congr rfl fun k _ => ?_
  rw [getD_lt _ k.2]
  rfl

theorem issVal_arctic {expf : R → R} {X : Data R} {D n : ℕ} (hX : IsData X D n) (hD : 0 < D) {w : SWord R}
    (hf : ∀ el ∈ w.els, el.length ≤ D) {j t : ℕ} (hj : j < X.length) (ht : t < n) :
    issVal expf .arctic 0 X w j t = chainMax (· + ·) 0 (fun k t => linform (X.getD j []) (w.els.getD k []) t) w.els.length t := by
  by_cases hw : w.els = []
  · rw [issVal, if_pos hw, hw, List.length_nil, chainMax]
  rw [issVal, if_neg hw]
  obtain ⟨F, h1, h2⟩ := C02_arctic_iss (expf := expf) (admissible_one hX hD hw hf)
  simp only [List.map_cons, List.map_nil] at h1
  rw [h1]
  simp only [List.getD_cons_zero]
  rw [getD_lt ([] : List R) (by simpa using hj), List.getElem_mapIdx, tab_getD _ _ _ _ ht]
  have h3 := h2 w (by simp) j hj t ht
  have h4 := chainMax_isGreatest (· + ·) (0 : R) (fun k t => linform (X.getD j []) (w.els.getD k []) t) w.els.length n
    (fun _ _ _ _ x y h => by simpa using h) t ht
  refine h3.unique ?_
  have he : {v | ∃ i : Fin w.els.length → ℕ, Monotone i ∧ (∀ k, i k ≤ t) ∧ v = ∑ k : Fin w.els.length, linform X[j] w.els[k] (i k)} =
      {v | ∃ i : Fin w.els.length → ℕ, WeakTuple t i ∧ v = chainVal (· + ·) 0 (fun k t => linform (X.getD j []) (w.els.getD k []) t) w.els.length i} := by
    ext v
    simp only [Set.mem_setOf_eq, WeakTuple, chainVal_add, zero_add, and_assoc]
    refine exists_congr fun i => and_congr_right fun _ => and_congr_right fun _ => ?_
    rw [getD_lt _ hj]
    refine iff_of_eq (congrArg _ (Finset.sum_congr rfl fun k _ => ?_))
    rw [getD_lt _ k.2]
    rfl
  rw [he]
  exact h4

theorem issVal_bayesian {expf : R → R} (hexp : ExpLike expf) {X : Data R} {D n : ℕ} (hX : IsData X D n) (hD : 0 < D) (hpos : Nonnegative X) {w : SWord R}
    (hf : ∀ el ∈ w.els, el.length ≤ D) (hdiv : NoZeroDivision X n [w]) {j t : ℕ} (hj : j < X.length) (ht : t < n) :
    issVal expf .bayesian 1 X w j t = chainMax (· * ·) 1 (fun k t => monomial (X.getD j []) (w.els.getD k []) t) w.els.length t := by
  by_cases hw : w.els = []
  · rw [issVal, if_pos hw, hw, List.length_nil, chainMax]
  rw [issVal, if_neg hw]
  obtain ⟨F, h1, h2⟩ := C03_bayesian_iss hexp (admissible_one hX hD hw hf) hdiv hpos
  simp only [List.map_cons, List.map_nil] at h1
  rw [h1]
  simp only [List.getD_cons_zero]
  rw [getD_lt ([] : List R) (by simpa using hj), List.getElem_mapIdx, tab_getD _ _ _ _ ht]
  have h3 := h2 w (by simp) j hj t ht
  have hnn : ∀ el t, 0 ≤ monomial (X.getD j []) el t := fun el t => by
    rw [getD_lt _ hj]
    exact Finset.prod_nonneg fun d _ => zpow_nonneg (hpos _ (List.getElem_mem hj) d t) _
  have h4 := chainMax_isGreatest (· * ·) (1 : R) (fun k t => monomial (X.getD j []) (w.els.getD k []) t) w.els.length n
    (fun _ _ _ _ x y h => mul_le_mul_of_nonneg_right h (hnn _ _)) t ht
  refine h3.unique ?_
  have he : {v | ∃ i : Fin w.els.length → ℕ, Monotone i ∧ (∀ k, i k ≤ t) ∧ v = ∏ k : Fin w.els.length, monomial X[j] w.els[k] (i k)} =
      {v | ∃ i : Fin w.els.length → ℕ, WeakTuple t i ∧ v = chainVal (· * ·) 1 (fun k t => monomial (X.getD j []) (w.els.getD k []) t) w.els.length i} := by
    ext v
    simp only [Set.mem_setOf_eq, WeakTuple, chainVal_mul, one_mul, and_assoc]
    refine exists_congr fun i => and_congr_right fun _ => and_congr_right fun _ => ?_
    rw [getD_lt _ hj]
    refine iff_of_eq (congrArg _ (Finset.prod_congr rfl fun k _ => ?_))
    rw [getD_lt _ k.2]
    rfl
  rw [he]
  exact h4

/-! ## The glued data -/

theorem glue_length {A B : Data R} (hl : A.length = B.length) : (glue A B).length = A.length := by simp [glue, hl]

theorem glue_getD {A B : Data R} (hl : A.length = B.length) {j : ℕ} (hj : j < A.length) :
    (glue A B).getD j [] = List.zipWith (· ++ ·) (A.getD j []) (B.getD j []) := by
  rw [getD_lt _ (by simpa [glue_length hl] using hj), getD_lt _ hj, getD_lt _ (hl ▸ hj)]
  simp [glue]

theorem glue_isData {A B : Data R} {D a b : ℕ} (hA : IsData A D a) (hB : IsData B D b) : IsData (glue A B) D (a + b) := by
  intro Z hZ
  obtain ⟨i, hi, rfl⟩ := List.getElem_of_mem hZ
  have hi' : i < A.length ∧ i < B.length := by simpa [glue] using hi
  have h1 := hA _ (List.getElem_mem hi'.1)
  have h2 := hB _ (List.getElem_mem hi'.2)
  simp only [glue, List.getElem_zipWith]
  refine ⟨by simp [h1.1, h2.1], fun x hx => ?_⟩
  obtain ⟨d, hd, rfl⟩ := List.getElem_of_mem hx
  have hd' : d < A[i].length ∧ d < B[i].length := by simpa using hd
  simp [h1.2 _ (List.getElem_mem hd'.1), h2.2 _ (List.getElem_mem hd'.2)]

theorem entry_glue {A B : Data R} {D a b : ℕ} (hA : IsData A D a) (hB : IsData B D b) (hl : A.length = B.length) {j d : ℕ} (hj : j < A.length) (t : ℕ) :
    entry ((glue A B).getD j []) d t = if t < a then entry (A.getD j []) d t else entry (B.getD j []) d (t - a) := by
  rw [glue_getD hl hj]
  have h1 := hA _ (List.getElem_mem hj)
  have h2 := hB _ (List.getElem_mem (hl ▸ hj))
  rw [getD_lt _ hj, getD_lt _ (hl ▸ hj)]
  rcases Nat.lt_or_ge d D with hd | hd
  · have e1 : d < A[j].length := by rw [h1.1]; exact hd
    have e2 : d < (B[j]'(hl ▸ hj)).length := by rw [h2.1]; exact hd
    rw [entry, entry, entry, getD_lt ([] : List R) (by simp [e1, e2]), getD_lt _ e1, getD_lt _ e2, List.getElem_zipWith]
    have e3 := h1.2 _ (List.getElem_mem e1)
    split
    · rw [List.getD, List.getElem?_append_left (by omega), ← List.getD]
    · rw [List.getD, List.getElem?_append_right (by omega), ← List.getD, e3]
  · have e : ∀ (Z : List (List R)) (t : ℕ), Z.length ≤ d → entry Z d t = 0 := by
      intro Z t hZ
      simp [entry, List.getD, hZ]
    rw [e _ _ (by simp [h1.1, hd]), e _ _ (by omega), e _ _ (by omega)]
    simp

theorem monomial_glue {A B : Data R} {D a b : ℕ} (hA : IsData A D a) (hB : IsData B D b) (hl : A.length = B.length) {j : ℕ} (hj : j < A.length) (el : List ℤ) (t : ℕ) :
    monomial ((glue A B).getD j []) el t = if t < a then monomial (A.getD j []) el t else monomial (B.getD j []) el (t - a) := by
  simp only [monomial, entry_glue hA hB hl hj]
  split <;> rfl

theorem linform_glue {A B : Data R} {D a b : ℕ} (hA : IsData A D a) (hB : IsData B D b) (hl : A.length = B.length) {j : ℕ} (hj : j < A.length) (el : List ℤ) (t : ℕ) :
    linform ((glue A B).getD j []) el t = if t < a then linform (A.getD j []) el t else linform (B.getD j []) el (t - a) := by
  simp only [linform, entry_glue hA hB hl hj]
  split <;> rfl

theorem glue_mem {A B : Data R} {Z : List (List R)} (hl : A.length = B.length) (hZ : Z ∈ glue A B) : ∃ j, j < A.length ∧ Z = (glue A B).getD j [] := by
  obtain ⟨i, hi, rfl⟩ := List.getElem_of_mem hZ
  exact ⟨i, by simpa [glue_length hl] using hi, (getD_lt _ hi).symm⟩

theorem glue_noZero {A B : Data R} {D a b : ℕ} (hA : IsData A D a) (hB : IsData B D b) (hl : A.length = B.length) {w : SWord R}
    (h1 : NoZeroDivision A a [w]) (h2 : NoZeroDivision B b [w]) : NoZeroDivision (glue A B) (a + b) [w] := by
  intro v hv el hel d hd hneg Z hZ t ht
  obtain ⟨j, hj, rfl⟩ := glue_mem hl hZ
  rw [entry_glue hA hB hl hj]
  split
  · rename_i h
    exact h1 v hv el hel d hd hneg _ (by rw [getD_lt _ hj]; exact List.getElem_mem hj) t h
  · exact h2 v hv el hel d hd hneg _ (by rw [getD_lt _ (hl ▸ hj)]; exact List.getElem_mem _) _ (by omega)

theorem glue_nonneg {A B : Data R} {D a b : ℕ} (hA : IsData A D a) (hB : IsData B D b) (hl : A.length = B.length)
    (h1 : Nonnegative A) (h2 : Nonnegative B) : Nonnegative (glue A B) := by
  intro Z hZ d t
  obtain ⟨j, hj, rfl⟩ := glue_mem hl hZ
  rw [entry_glue hA hB hl hj]
  split
  · exact h1 _ (by rw [getD_lt _ hj]; exact List.getElem_mem hj) d t
  · exact h2 _ (by rw [getD_lt _ (hl ▸ hj)]; exact List.getElem_mem _) d _

private theorem getD_take' {α : Type} (l : List α) (d : α) {q k : ℕ} (h : k < q) : (l.take q).getD k d = l.getD k d := by
  simp [List.getD, List.getElem?_take, h]

private theorem getD_drop' {α : Type} (l : List α) (d : α) (q k : ℕ) : (l.drop q).getD k d = l.getD (q + k) d := by
  simp [List.getD, List.getElem?_drop]

private theorem noZero_part {X : Data R} {n : ℕ} {w v : SWord R} (h : NoZeroDivision X n [w]) (hs : ∀ el ∈ v.els, el ∈ w.els) : NoZeroDivision X n [v] := by
  intro u hu el hel
  rw [List.mem_singleton.1 hu] at hel
  exact h w (by simp) el (hs el hel)

/-- **C146**, Reals.  The iterated sum of the glued series is, during the first part, the iterated sum of the first part.  Later it is the sum
over all ways to split the word of (the prefix over the whole first part) times (the suffix over the second part so far). -/
theorem C146_chen_reals {expf : R → R} (hexp : ExpLike expf) {A B : Data R} {D a b : ℕ} (hA : IsData A D a) (hB : IsData B D b)
    (hl : A.length = B.length) (hD : 0 < D) (ha : 0 < a) {w : SWord R} (hf : ∀ el ∈ w.els, el.length ≤ D)
    (h1 : NoZeroDivision A a [w]) (h2 : NoZeroDivision B b [w]) {j : ℕ} (hj : j < A.length) :
    (∀ t < a, issVal expf .reals 1 (glue A B) w j t = issVal expf .reals 1 A w j t) ∧
    ∀ t < b, issVal expf .reals 1 (glue A B) w j (a + t) =
      ∑ q ∈ Finset.range (w.els.length + 1), issVal expf .reals 1 A (wordPrefix q w) j (a - 1) * issVal expf .reals 1 B (wordSuffix q w) j t := by
  have hX := glue_isData hA hB
  have hdiv := glue_noZero hA hB hl h1 h2
  have hj' : j < (glue A B).length := by rw [glue_length hl]; exact hj
  constructor
  · intro t ht
    rw [issVal_reals hexp hX hD hf hdiv hj' (by omega), issVal_reals hexp hA hD hf h1 hj ht]
    refine incSum_congr fun k _ s hs => ?_
    rw [monomial_glue hA hB hl hj, if_pos (by omega)]
  · intro t ht
    rw [issVal_reals hexp hX hD hf hdiv hj' (by omega), add_assoc, incSum_split]
    refine Finset.sum_congr rfl fun q hq => ?_
    have hq' : q ≤ w.els.length := by have := Finset.mem_range.1 hq; omega
    rw [issVal_reals hexp hA hD (fun el hel => hf el (List.mem_of_mem_take hel)) (noZero_part h1 fun el hel => List.mem_of_mem_take hel) hj (by omega),
      issVal_reals hexp hB hD (fun el hel => hf el (List.mem_of_mem_drop hel)) (noZero_part h2 fun el hel => List.mem_of_mem_drop hel) (hl ▸ hj) ht]
    have e1 : (wordPrefix q w).els.length = q := by simp [wordPrefix, hq']
    have e2 : (wordSuffix q w).els.length = w.els.length - q := by simp [wordSuffix]
    rw [e1, e2, show a - 1 + 1 = a by omega]
    congr 1
    · refine incSum_congr fun k hk s hs => ?_
      rw [monomial_glue hA hB hl hj, if_pos hs, wordPrefix, getD_take' _ _ hk]
    · refine incSum_congr fun k hk s hs => ?_
      rw [monomial_glue hA hB hl hj, if_neg (by omega), wordSuffix, getD_drop', show a + s - a = s by omega]

/-- **C146**, Arctic: the same with maxima instead of sums and sums instead of products. -/
theorem C146_chen_arctic {expf : R → R} {A B : Data R} {D a b : ℕ} (hA : IsData A D a) (hB : IsData B D b)
    (hl : A.length = B.length) (hD : 0 < D) (ha : 0 < a) {w : SWord R} (hf : ∀ el ∈ w.els, el.length ≤ D) {j : ℕ} (hj : j < A.length) :
    (∀ t < a, issVal expf .arctic 0 (glue A B) w j t = issVal expf .arctic 0 A w j t) ∧
    ∀ t < b, IsGreatest {v | ∃ q ≤ w.els.length, v = issVal expf .arctic 0 A (wordPrefix q w) j (a - 1) + issVal expf .arctic 0 B (wordSuffix q w) j t}
      (issVal expf .arctic 0 (glue A B) w j (a + t)) := by
  have hX := glue_isData hA hB
  have hj' : j < (glue A B).length := by rw [glue_length hl]; exact hj
  constructor
  · intro t ht
    rw [issVal_arctic hX hD hf hj' (by omega), issVal_arctic hA hD hf hj ht]
    refine chainMax_congr _ _ fun k _ s hs => ?_
    rw [linform_glue hA hB hl hj, if_pos (by omega)]
  · intro t ht
    rw [issVal_arctic hX hD hf hj' (by omega)]
    have key := chainMax_split (op := ((· + ·) : R → R → R)) (b := 0) (N := fun _ => True) add_assoc add_zero trivial (fun _ _ _ _ => trivial)
      (fun x y z _ h => add_le_add_left h z) (fun x y z _ h => add_le_add_right h z)
      (fun k t => linform ((glue A B).getD j []) (w.els.getD k []) t) (fun _ _ => trivial) w.els.length (a - 1) t
    rw [show a - 1 + 1 = a by omega] at key
    refine cast (congrArg (fun s => IsGreatest s _) ?_) key
    ext v
    simp only [Set.mem_setOf_eq]
    refine exists_congr fun q => and_congr_right fun hq => iff_of_eq (congrArg _ ?_)
    rw [issVal_arctic hA hD (fun el hel => hf el (List.mem_of_mem_take hel)) hj (by omega),
      issVal_arctic hB hD (fun el hel => hf el (List.mem_of_mem_drop hel)) (hl ▸ hj) ht]
    have e1 : (wordPrefix q w).els.length = q := by simp [wordPrefix, hq]
    have e2 : (wordSuffix q w).els.length = w.els.length - q := by simp [wordSuffix]
    rw [e1, e2]
    congr 1
    · refine chainMax_congr _ _ fun k hk s hs => ?_
      rw [linform_glue hA hB hl hj, if_pos (by omega), wordPrefix, getD_take' _ _ hk]
    · refine chainMax_congr _ _ fun k hk s hs => ?_
      rw [linform_glue hA hB hl hj, if_neg (by omega), wordSuffix, getD_drop', show a + s - a = s by omega]

/-- **C146**, Bayesian, for non-negative data: the same with maxima instead of sums. -/
theorem C146_chen_bayesian {expf : R → R} (hexp : ExpLike expf) {A B : Data R} {D a b : ℕ} (hA : IsData A D a) (hB : IsData B D b)
    (hl : A.length = B.length) (hD : 0 < D) (ha : 0 < a) {w : SWord R} (hf : ∀ el ∈ w.els, el.length ≤ D)
    (hpA : Nonnegative A) (hpB : Nonnegative B) (h1 : NoZeroDivision A a [w]) (h2 : NoZeroDivision B b [w]) {j : ℕ} (hj : j < A.length) :
    (∀ t < a, issVal expf .bayesian 1 (glue A B) w j t = issVal expf .bayesian 1 A w j t) ∧
    ∀ t < b, IsGreatest {v | ∃ q ≤ w.els.length, v = issVal expf .bayesian 1 A (wordPrefix q w) j (a - 1) * issVal expf .bayesian 1 B (wordSuffix q w) j t}
      (issVal expf .bayesian 1 (glue A B) w j (a + t)) := by
  have hX := glue_isData hA hB
  have hp := glue_nonneg hA hB hl hpA hpB
  have hdiv := glue_noZero hA hB hl h1 h2
  have hj' : j < (glue A B).length := by rw [glue_length hl]; exact hj
  constructor
  · intro t ht
    rw [issVal_bayesian hexp hX hD hp hf hdiv hj' (by omega), issVal_bayesian hexp hA hD hpA hf h1 hj ht]
    refine chainMax_congr _ _ fun k _ s hs => ?_
    rw [monomial_glue hA hB hl hj, if_pos (by omega)]
  · intro t ht
    rw [issVal_bayesian hexp hX hD hp hf hdiv hj' (by omega)]
    have hnn : ∀ el t, 0 ≤ monomial ((glue A B).getD j []) el t := fun el t => by
      rw [getD_lt _ hj']
      exact Finset.prod_nonneg fun d _ => zpow_nonneg (hp _ (List.getElem_mem hj') d t) _
    have key := chainMax_split (op := ((· * ·) : R → R → R)) (b := 1) (N := fun x => 0 ≤ x) mul_assoc mul_one zero_le_one (fun _ _ => mul_nonneg)
      (fun x y z hz h => mul_le_mul_of_nonneg_right h hz) (fun x y z hz h => mul_le_mul_of_nonneg_left h hz)
      (fun k t => monomial ((glue A B).getD j []) (w.els.getD k []) t) (fun _ _ => hnn _ _) w.els.length (a - 1) t
    rw [show a - 1 + 1 = a by omega] at key
    refine cast (congrArg (fun s => IsGreatest s _) ?_) key
    ext v
    simp only [Set.mem_setOf_eq]
    refine exists_congr fun q => and_congr_right fun hq => iff_of_eq (congrArg _ ?_)
    rw [issVal_bayesian hexp hA hD hpA (fun el hel => hf el (List.mem_of_mem_take hel)) (noZero_part h1 fun el hel => List.mem_of_mem_take hel) hj (by omega),
      issVal_bayesian hexp hB hD hpB (fun el hel => hf el (List.mem_of_mem_drop hel)) (noZero_part h2 fun el hel => List.mem_of_mem_drop hel) (hl ▸ hj) ht]
    have e1 : (wordPrefix q w).els.length = q := by simp [wordPrefix, hq]
    have e2 : (wordSuffix q w).els.length = w.els.length - q := by simp [wordSuffix]
    rw [e1, e2]
    congr 1
    · refine chainMax_congr _ _ fun k hk s hs => ?_
      rw [monomial_glue hA hB hl hj, if_pos (by omega), wordPrefix, getD_take' _ _ hk]
    · refine chainMax_congr _ _ fun k hk s hs => ?_
      rw [monomial_glue hA hB hl hj, if_neg (by omega), wordSuffix, getD_drop', show a + s - a = s by omega]

/-! ### the hypotheses are satisfiable -/

/-- The word `[1][1]`. -/
def chenWord : SWord ℚ := ⟨[[1], [1]], 1, "[1][1]".toList, none⟩

/-- The series `1, 2` followed by `3, 4`: the iterated sum is `2 + (1 + 2) * (3 + 4) + 12 = 35`. -/
example : IsData ([[[1, 2]]] : Data ℚ) 1 2 ∧ IsData ([[[3, 4]]] : Data ℚ) 1 2 ∧ NoZeroDivision ([[[1, 2]]] : Data ℚ) 2 [chenWord] ∧
    Nonnegative ([[[1, 2]]] : Data ℚ) ∧ ExpLike (fun _ : ℚ => (1 : ℚ)) := by
  refine ⟨by simp [IsData, Rect], by simp [IsData, Rect], ?_, ?_, ⟨by simp, by simp⟩⟩
  · intro w hw el hel d hd hneg
    rw [List.mem_singleton.1 hw] at hel
    have : el = [1] := by simpa [chenWord] using hel
    subst this
    have : d = 0 := by simpa using hd
    subst this
    simp at hneg
  · intro Z hZ d t
    obtain rfl := List.mem_singleton.1 hZ
    rcases d with _ | d <;> rcases t with _ | _ | t <;> norm_num [entry]

example : issVal (fun _ => 1) .reals 1 (glue [[[1, 2]]] [[[3, 4]]]) chenWord 0 3 = 35 ∧
    issVal (fun _ => 1) .reals 1 [[[1, 2]]] (wordPrefix 1 chenWord) 0 1 * issVal (fun _ => 1) .reals 1 [[[3, 4]]] (wordSuffix 1 chenWord) 0 1 = 21 ∧
    issVal (fun _ => 1) .arctic 0 (glue [[[1, 2]]] [[[3, 4]]]) chenWord 0 3 = 8 := by decide +kernel

end Fruits
