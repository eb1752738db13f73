import Verif.CorbData

/-! # C123, C124: `replace_nan` and `multisine` -/

set_option linter.unusedSectionVars false

namespace Fruits
variable {R : Type} [Field R] [LinearOrder R] [IsStrictOrderedRing R] [FloorRing R]

/-! ### replace_nan -/

section places
variable {α : Type}

/-- The indices are those of an entry. -/
def InShape (A : Data α) (i j t : ℕ) : Prop := ∃ Z x v, A[i]? = some Z ∧ Z[j]? = some x ∧ x[t]? = some v

theorem get3_of (A : Data α) (dflt : α) {i j t : ℕ} {Z : Series α} {x : List α} {v : α} (h1 : A[i]? = some Z) (h2 : Z[j]? = some x) (h3 : x[t]? = some v) :
    get3 A dflt i j t = v := by
  simp [get3, List.getD_eq_getElem?_getD, h1, h2, h3]

theorem get3_set3 (A : Data α) (dflt v : α) {i j t : ℕ} (h : InShape A i j t) (a b c : ℕ) :
    get3 (set3 A i j t v) dflt a b c = if a = i ∧ b = j ∧ c = t then v else get3 A dflt a b c := by
  obtain ⟨Z, x, u, h1, h2, h3⟩ := h
  unfold get3 set3
  simp only [List.getD_eq_getElem?_getD, List.getElem?_modify]
  by_cases ha : a = i
  · subst ha
    simp only [h1, if_true, Option.map_some, Option.getD_some, true_and, List.getElem?_modify]
    by_cases hb : b = j
    · subst hb
      simp only [h2, if_true, Option.map_some, Option.getD_some, true_and]
      by_cases hc : c = t
      · subst hc
        have : c < x.length := (List.getElem?_eq_some_iff.1 h3).1
        simp [h2, this]
      · have : ¬ t = c := fun e => hc e.symm
        simp [hc, h2, List.getElem?_set, this]
    · have : ¬ j = b := fun e => hb e.symm
      simp [hb, this]
  · have : ¬ i = a := fun e => ha e.symm
    simp [ha, this]

theorem hasShape_set3 {A : Data α} {m d n : ℕ} (h : HasShape A m d n) (i j t : ℕ) (v : α) : HasShape (set3 A i j t v) m d n := by
  unfold set3
  refine ⟨by simpa using h.1, ?_⟩
  intro Z hZ
  obtain ⟨a, ha, rfl⟩ := List.mem_iff_getElem.1 hZ
  rw [List.length_modify] at ha
  obtain ⟨e1, e2⟩ := h.2 _ (List.getElem_mem ha)
  rw [List.getElem_modify]
  split
  · refine ⟨by simpa using e1, ?_⟩
    intro x hx
    obtain ⟨b, hb, rfl⟩ := List.mem_iff_getElem.1 hx
    rw [List.length_modify] at hb
    rw [List.getElem_modify]
    split
    · rw [List.length_set]; exact e2 _ (List.getElem_mem hb)
    · exact e2 _ (List.getElem_mem hb)
  · exact ⟨e1, e2⟩

theorem HasShape.inShape {A : Data α} {m d n : ℕ} (h : HasShape A m d n) {i j t : ℕ} (hi : i < m) (hj : j < d) (ht : t < n) : InShape A i j t := by
  have hi' : i < A.length := by rw [h.1]; exact hi
  obtain ⟨e1, e2⟩ := h.2 _ (List.getElem_mem hi')
  have hj' : j < A[i].length := by rw [e1]; exact hj
  have e3 := e2 _ (List.getElem_mem hj')
  exact ⟨A[i], A[i][j], A[i][j][t]'(by rw [e3]; exact ht), by simp [hi'], by simp [hj'], by simp⟩

theorem InShape.lt {A : Data α} {m d n : ℕ} (h : HasShape A m d n) {i j t : ℕ} (hs : InShape A i j t) : i < m ∧ j < d ∧ t < n := by
  obtain ⟨Z, x, v, h1, h2, h3⟩ := hs
  obtain ⟨a1, rfl⟩ := List.getElem?_eq_some_iff.1 h1
  obtain ⟨a2, rfl⟩ := List.getElem?_eq_some_iff.1 h2
  obtain ⟨a3, -⟩ := List.getElem?_eq_some_iff.1 h3
  obtain ⟨e1, e2⟩ := h.2 _ (List.getElem_mem a1)
  have e3 := e2 _ (List.getElem_mem a2)
  exact ⟨by rw [← h.1]; exact a1, by rw [← e1]; exact a2, by rw [← e3]; exact a3⟩

end places

/-- The order in which numpy walks through the places of an array. -/
def Before (p q : ℕ × ℕ × ℕ) : Prop := p.1 < q.1 ∨ p.1 = q.1 ∧ (p.2.1 < q.2.1 ∨ p.2.1 = q.2.1 ∧ p.2.2 < q.2.2)

theorem mem_nanPlaces (X : Data (Fl R)) (i j t : ℕ) : (i, j, t) ∈ nanPlaces X ↔ ∃ Z x, X[i]? = some Z ∧ Z[j]? = some x ∧ x[t]? = some .nan := by
  unfold nanPlaces
  simp only [List.mem_flatMap, List.mem_map, List.mem_filter, Prod.mk.injEq, Prod.exists, List.mk_mem_zipIdx_iff_getElem?, decide_eq_true_eq]
  constructor
  · rintro ⟨Z, i', hZ, x, j', hx, v, t', ⟨hv, rfl⟩, rfl, rfl, rfl⟩
    exact ⟨Z, x, hZ, hx, hv⟩
  · rintro ⟨Z, x, hZ, hx, hv⟩
    exact ⟨Z, i, hZ, x, j, hx, _, t, ⟨hv, rfl⟩, rfl, rfl, rfl⟩

theorem pairwise_zipIdx {α : Type} (l : List α) (s : ℕ) : (l.zipIdx s).Pairwise fun a b => a.2 < b.2 := by
  induction l generalizing s with
  | nil => simp
  | cons a l ih =>
    rw [List.zipIdx_cons, List.pairwise_cons]
    refine ⟨?_, ih _⟩
    intro b hb
    have := List.le_snd_of_mem_zipIdx hb
    show s < b.2
    omega

theorem nanPlaces_sorted (X : Data (Fl R)) : (nanPlaces X).Pairwise Before := by
  unfold nanPlaces
  rw [List.pairwise_flatMap]
  refine ⟨?_, ?_⟩
  · intro Z hZ
    rw [List.pairwise_flatMap]
    refine ⟨?_, ?_⟩
    · intro x hx
      rw [List.pairwise_map]
      exact ((pairwise_zipIdx x.1 0).filter _).imp fun h => Or.inr ⟨rfl, Or.inr ⟨rfl, h⟩⟩
    · refine (pairwise_zipIdx _ 0).imp ?_
      intro a b hab p hp q hq
      simp only [List.mem_map] at hp hq
      obtain ⟨_, -, rfl⟩ := hp
      obtain ⟨_, -, rfl⟩ := hq
      exact Or.inr ⟨rfl, Or.inl hab⟩
  · refine (pairwise_zipIdx _ 0).imp ?_
    intro a b hab p hp q hq
    simp only [List.mem_flatMap, List.mem_map] at hp hq
    obtain ⟨_, -, _, -, rfl⟩ := hp
    obtain ⟨_, -, _, -, rfl⟩ := hq
    exact Or.inl hab

/-- The value of the last observation up to time `t`, zero if there is none. -/
def observed (X : Data (Fl R)) (i j : ℕ) : ℕ → Fl R
  | 0 => if get3 X (.finite 0) i j 0 = .nan then .finite 0 else get3 X (.finite 0) i j 0
  | t + 1 => if get3 X (.finite 0) i j (t + 1) = .nan then observed X i j t else get3 X (.finite 0) i j (t + 1)

theorem observed_of_ne {X : Data (Fl R)} {i j t : ℕ} (h : get3 X (.finite 0) i j t ≠ .nan) : observed X i j t = get3 X (.finite 0) i j t := by
  cases t <;> rw [observed, if_neg h]

theorem foldl_fillNan {X : Data (Fl R)} {m d n : ℕ} : ∀ (rest : List (ℕ × ℕ × ℕ)) (out : Data (Fl R)),
    HasShape out m d n → rest.Pairwise Before → (∀ p ∈ rest, p.1 < m ∧ p.2.1 < d ∧ p.2.2 < n ∧ get3 X (.finite 0) p.1 p.2.1 p.2.2 = .nan) →
    (∀ i j t, i < m → j < d → t < n → (i, j, t) ∉ rest → get3 out (.finite 0) i j t = observed X i j t) →
    HasShape (rest.foldl fillNan out) m d n ∧
      ∀ i j t, i < m → j < d → t < n → get3 (rest.foldl fillNan out) (.finite 0) i j t = observed X i j t := by
  intro rest
  induction rest with
  | nil => intro out h1 _ _ h4; exact ⟨h1, fun i j t a b c => h4 i j t a b c (by simp)⟩
  | cons p rest ih =>
    intro out h1 h2 h3 h4
    rw [List.foldl_cons]
    rw [List.pairwise_cons] at h2
    obtain ⟨p1, p2, p3⟩ := p
    obtain ⟨b1, b2, b3, hnan⟩ := h3 _ List.mem_cons_self
    dsimp only at b1 b2 b3 hnan
    have hin := h1.inShape b1 b2 b3
    have hout : fillNan out (p1, p2, p3) = set3 out p1 p2 p3 (observed X p1 p2 p3) := by
      unfold fillNan
      dsimp only
      rcases p3 with _ | t
      · rw [if_pos rfl, observed, if_pos hnan]
      · rw [if_neg (by omega), observed, if_pos hnan]
        congr 1
        refine h4 p1 p2 t b1 b2 (by omega) ?_
        rw [List.mem_cons, not_or]
        refine ⟨by simp, fun hm => ?_⟩
        have := h2.1 _ hm
        unfold Before at this
        dsimp only at this
        omega
    rw [hout]
    refine ih _ (hasShape_set3 h1 _ _ _ _) h2.2 (fun q hq => h3 q (List.mem_cons_of_mem _ hq)) ?_
    intro i j t hi hj ht hnot
    rw [get3_set3 _ _ _ hin]
    by_cases he : i = p1 ∧ j = p2 ∧ t = p3
    · rw [if_pos he]
      obtain ⟨rfl, rfl, rfl⟩ := he
      rfl
    · rw [if_neg he]
      refine h4 i j t hi hj ht ?_
      rw [List.mem_cons, not_or]
      refine ⟨?_, hnot⟩
      intro e
      simp only [Prod.mk.injEq] at e
      exact he e

theorem replaceNan_eq (big : R) {X : Data (Fl R)} {m d n : ℕ} (hX : HasShape X m d n) :
    HasShape (replaceNan big none X) m d n ∧ ∀ i j t, i < m → j < d → t < n → get3 (replaceNan big none X) (.finite 0) i j t = observed X i j t := by
  refine foldl_fillNan (nanPlaces X) X hX (nanPlaces_sorted X) ?_ ?_
  · rintro ⟨i, j, t⟩ hp
    obtain ⟨Z, x, h1, h2, h3⟩ := (mem_nanPlaces X i j t).1 hp
    obtain ⟨a, b, c⟩ := InShape.lt hX ⟨Z, x, _, h1, h2, h3⟩
    exact ⟨a, b, c, get3_of X _ h1 h2 h3⟩
  · intro i j t hi hj ht hnot
    refine (observed_of_ne fun e => hnot ?_).symm
    obtain ⟨Z, x, v, h1, h2, h3⟩ := hX.inShape hi hj ht
    rw [get3_of X _ h1 h2 h3] at e
    subst e
    exact (mem_nanPlaces X i j t).2 ⟨Z, x, h1, h2, h3⟩

/-- **C123.** `replace_nan(X)` keeps the shape and all values that are not NaN; a NaN is replaced by the last value of the series that is
not NaN, and by zero if there is none. So no NaN is left. -/
theorem C123_last_observed (big : R) {X : Data (Fl R)} {m d n : ℕ} (hX : HasShape X m d n) :
    HasShape (replaceNan big none X) m d n ∧
    ∀ i < m, ∀ j < d, ∀ t < n, get3 (replaceNan big none X) (.finite 0) i j t ≠ .nan ∧
      (get3 X (.finite 0) i j t ≠ .nan → get3 (replaceNan big none X) (.finite 0) i j t = get3 X (.finite 0) i j t) ∧
      (∀ s < t, get3 X (.finite 0) i j s ≠ .nan → (∀ u, s < u → u ≤ t → get3 X (.finite 0) i j u = .nan) →
        get3 (replaceNan big none X) (.finite 0) i j t = get3 X (.finite 0) i j s) ∧
      ((∀ u ≤ t, get3 X (.finite 0) i j u = .nan) → get3 (replaceNan big none X) (.finite 0) i j t = .finite 0) := by
  obtain ⟨h1, h2⟩ := replaceNan_eq big hX
  refine ⟨h1, ?_⟩
  intro i hi j hj t ht
  rw [h2 i j t hi hj ht]
  have key : ∀ s t, s ≤ t → get3 X (.finite 0) i j s ≠ .nan → (∀ u, s < u → u ≤ t → get3 X (.finite 0) i j u = .nan) →
      observed X i j t = get3 X (.finite 0) i j s := by
    intro s t
    induction t with
    | zero =>
      intro h0 hs _
      have : s = 0 := by omega
      subst this
      exact observed_of_ne hs
    | succ t ih =>
      intro h0 hs hu
      rcases Nat.lt_or_ge t s with h | h
      · have : s = t + 1 := by omega
        subst this
        exact observed_of_ne hs
      · rw [observed, if_pos (hu (t + 1) (by omega) le_rfl)]
        exact ih h hs fun u h1 h2 => hu u h1 (by omega)
  refine ⟨?_, observed_of_ne, fun s hs => key s t (by omega), ?_⟩
  · induction t with
    | zero =>
      rw [observed]
      split
      · simp
      · assumption
    | succ t ih =>
      rw [observed]
      split
      · exact ih (by omega)
      · assumption
  · intro hall
    induction t with
    | zero => rw [observed, if_pos (hall 0 le_rfl)]
    | succ t ih => rw [observed, if_pos (hall _ le_rfl)]; exact ih (by omega) fun u hu => hall u (by omega)

/-- **C123**, with a value: every NaN is replaced by it, the shape and all finite values are kept. -/
theorem C123_value_partial (big v : R) {X : Data (Fl R)} {m d n : ℕ} (hX : HasShape X m d n) :
    HasShape (replaceNan big (some v) X) m d n ∧
    ∀ i < m, ∀ j < d, ∀ t < n,
      (get3 X (.finite 0) i j t = .nan → get3 (replaceNan big (some v) X) (.finite 0) i j t = .finite v) ∧
      ∀ r, get3 X (.finite 0) i j t = .finite r → get3 (replaceNan big (some v) X) (.finite 0) i j t = .finite r := by
  have hsh : HasShape (replaceNan big (some v) X) m d n := by
    unfold replaceNan mapEntries mapRows
    refine ⟨by simpa using hX.1, ?_⟩
    intro Z hZ
    obtain ⟨Z', hZ', rfl⟩ := List.mem_map.1 hZ
    obtain ⟨e1, e2⟩ := hX.2 _ hZ'
    refine ⟨by simpa using e1, ?_⟩
    intro x hx
    obtain ⟨x', hx', rfl⟩ := List.mem_map.1 hx
    simpa using e2 _ hx'
  refine ⟨hsh, ?_⟩
  intro i hi j hj t ht
  obtain ⟨Z, x, u, h1, h2, h3⟩ := hX.inShape hi hj ht
  have e : get3 (replaceNan big (some v) X) (.finite 0) i j t = Fl.nanTo v big u := by
    refine get3_of _ _ (Z := Z.map (List.map (Fl.nanTo v big))) (x := x.map (Fl.nanTo v big)) ?_ ?_ ?_
    · simp [replaceNan, mapEntries, mapRows, h1]
    · simp [h2]
    · simp [h3]
  rw [e, get3_of X _ h1 h2 h3]
  refine ⟨?_, ?_⟩
  · rintro rfl; rfl
  · rintro r rfl; rfl

/-- **C123 fails for infinite values** if a value is given: they are replaced, too. (Without a value they are kept.) -/
theorem C123_counterexample : replaceNan (1000 : ℚ) (some 5) [[[.finite 1, .nan, .posInf]]] = [[[.finite 1, .finite 5, .finite 1000]]] ∧
    replaceNan (1000 : ℚ) none [[[.finite 1, .nan, .posInf]]] = [[[.finite 1, .finite 1, .posInf]]] := by decide +kernel

example : replaceNan (1000 : ℚ) none [[[.nan, .nan, .finite 3, .nan, .nan, .finite 2], [.finite 1, .nan, .nan, .nan, .finite 2, .nan]]] =
    [[[.finite 0, .finite 0, .finite 3, .finite 3, .finite 3, .finite 2], [.finite 1, .finite 1, .finite 1, .finite 1, .finite 2, .finite 2]]] := by decide +kernel

/-! ### multisine -/

theorem spreadRest_tab {k : ℕ} : ∀ (r : ℕ) (f : ℕ → ℕ), r < k → spreadRest k r (tab k f) = tab k fun c => f c + if 1 ≤ c ∧ c ≤ r then 1 else 0 := by
  intro r
  induction r with
  | zero =>
    intro f _
    rw [spreadRest]
    apply tab_congr
    intro c _
    rw [if_neg (by omega)]; rfl
  | succ r ih =>
    intro f h
    have e : (tab k f).modify ((r + 1) % k) (· + 1) = tab k fun c => if c = r + 1 then f c + 1 else f c := by
      rw [Nat.mod_eq_of_lt h]
      apply eq_tab
      · simp
      · intro i hi
        rw [List.getElem_modify]
        by_cases h1 : i = r + 1
        · simp [h1]
        · have : ¬ r + 1 = i := fun e => h1 e.symm
          simp [h1, this]
    rw [spreadRest, e, ih _ (by omega)]
    apply tab_congr
    intro c _
    by_cases h1 : c = r + 1
    · rw [if_pos h1, if_neg (by omega), if_pos (by omega)]
    · rw [if_neg h1]
      by_cases h2 : 1 ≤ c ∧ c ≤ r
      · rw [if_pos h2, if_pos (by omega)]
      · rw [if_neg h2, if_neg (by omega)]

theorem classSizes_eq {k : ℕ} (hk : 0 < k) (total : ℕ) :
    classSizes total k = tab k fun c => total / k + if 1 ≤ c ∧ c ≤ total % k then 1 else 0 := by
  unfold classSizes
  have : total - total / k * k = total % k := by
    have := Nat.div_add_mod total k
    rw [Nat.mul_comm] at this
    omega
  rw [this, replicate_eq_tab, spreadRest_tab _ _ (Nat.mod_lt _ hk)]

theorem classSizes_sum {k : ℕ} (hk : 0 < k) (total : ℕ) : (classSizes total k).sum = total := by
  rw [classSizes_eq hk, sum_tab, Finset.sum_add_distrib]
  have h1 : ∑ i ∈ Finset.range k, (if 1 ≤ i ∧ i ≤ total % k then 1 else 0) = total % k := by
    rw [← Finset.card_filter]
    have : (Finset.range k).filter (fun i => 1 ≤ i ∧ i ≤ total % k) = Finset.Icc 1 (total % k) := by
      ext i
      have := Nat.mod_lt total hk
      simp only [Finset.mem_filter, Finset.mem_range, Finset.mem_Icc]
      omega
    rw [this, Nat.card_Icc]; omega
  rw [h1, Finset.sum_const, Finset.card_range, smul_eq_mul]
  exact Nat.div_add_mod total k

theorem fillClasses_spec (models : List (List R)) (noise : ℕ → ℕ → R) : ∀ (cs : List (ℕ × ℕ)) (s : ℕ),
    (fillClasses models noise cs s).2 = cs.flatMap (fun p => List.replicate p.2 p.1) ∧
    (fillClasses models noise cs s).1 = (fillClasses models noise cs s).2.mapIdx fun q y => (models.getD y []).mapIdx fun t v => v + noise (s + q) t := by
  intro cs
  induction cs with
  | nil => intro s; exact ⟨rfl, rfl⟩
  | cons p cs ih =>
    intro s
    obtain ⟨i, k⟩ := p
    obtain ⟨h1, h2⟩ := ih (s + k)
    rw [fillClasses]
    dsimp only
    refine ⟨by rw [h1]; simp, ?_⟩
    rw [List.mapIdx_append, h2]
    congr 1
    · apply List.ext_getElem
      · simp
      · intro q _ _; simp
    · apply List.ext_getElem
      · simp
      · intro q _ _; simp [Nat.add_assoc, Nat.add_comm k q]

theorem count_classes (f : ℕ → ℕ) (c : ℕ) : ∀ k, ((tab k fun i => (i, f i)).flatMap fun p => List.replicate p.2 p.1).count c = if c < k then f c else 0 := by
  intro k
  induction k with
  | zero => simp
  | succ k ih =>
    rw [tab_succ, List.flatMap_append, List.count_append, ih]
    simp only [List.flatMap_cons, List.flatMap_nil, List.append_nil, List.count_replicate]
    by_cases h : k = c
    · subst h; simp
    · have e : (k == c) = false := by simpa using h
      rw [e]
      by_cases h2 : c < k
      · have : c < k + 1 := by omega
        simp only [h2, this, if_true, Bool.false_eq_true, if_false, Nat.add_zero]
      · have : ¬ c < k + 1 := by omega
        simp only [h2, this, Bool.false_eq_true, if_false, Nat.add_zero]

theorem sorted_classes (f : ℕ → ℕ) : ∀ k, ((tab k fun i => (i, f i)).flatMap fun p => List.replicate p.2 p.1).Pairwise (· ≤ ·) ∧
    ∀ y ∈ (tab k fun i => (i, f i)).flatMap (fun p => List.replicate p.2 p.1), y < k := by
  intro k
  induction k with
  | zero => simp
  | succ k ih =>
    rw [tab_succ, List.flatMap_append]
    simp only [List.flatMap_cons, List.flatMap_nil, List.append_nil]
    refine ⟨?_, ?_⟩
    · rw [List.pairwise_append]
      refine ⟨ih.1, List.pairwise_replicate_of_refl, ?_⟩
      intro a ha b hb
      have := ih.2 a ha
      rw [List.eq_of_mem_replicate hb]
      omega
    · intro y hy
      rcases List.mem_append.1 hy with h | h
      · have := ih.2 y h; omega
      · rw [List.eq_of_mem_replicate h]; omega

theorem numbered_tab (k : ℕ) (f : ℕ → ℕ) : ((tab k f).zipIdx.map fun p => (p.2, p.1)) = tab k fun i => (i, f i) := by
  apply eq_tab
  · simp
  · intro i hi; simp

theorem multisineAt_eq [NpMath R] (coeff : List (List R)) (x : R) :
    multisineAt coeff x = (coeff.map fun c => c.getD 0 0 * NpMath.sin (c.getD 1 0 * x + c.getD 2 0)).sum := by
  have : ∀ (l : List (List R)) (a : R), l.foldl (fun ret c => ret + c.getD 0 0 * NpMath.sin (c.getD 1 0 * x + c.getD 2 0)) a =
      a + (l.map fun c => c.getD 0 0 * NpMath.sin (c.getD 1 0 * x + c.getD 2 0)).sum := by
    intro l
    induction l with
    | nil => simp
    | cons c l ih => intro a; rw [List.foldl_cons, ih]; simp [add_assoc]
  rw [multisineAt, this, zero_add]

/-- What is promised about the training (and about the test) set: `size` labelled series, the classes in order, all classes
with the same number of series up to one, and each series the sum of sines of its class, plus noise. -/
structure SineSet [NpMath R] (pi : R) (size length classes : ℕ) (coefficients : List (List (List R))) (noise : ℕ → ℕ → R) (X : Data R) (y : List ℕ) : Prop where
  shape : HasShape X size 1 length
  labels : y.length = size
  below : ∀ c ∈ y, c < classes
  ordered : y.Pairwise (· ≤ ·)
  balanced : ∀ c < classes, ∀ c' < classes, y.count c ≤ y.count c' + 1
  series : ∀ s < size, ∀ t < length, at3 X s 0 t =
    ((coefficients.getD (y.getD s 0) []).map fun c => c.getD 0 0 * NpMath.sin (c.getD 1 0 * (2 * pi * (t : R) / ((length : R) - 1)) + c.getD 2 0)).sum + noise s t

theorem sineSet [NpMath R] (pi : R) (size : ℕ) {length classes : ℕ} {coefficients : List (List (List R))} (hk : 0 < classes) (hc : classes ≤ coefficients.length)
    (noise : ℕ → ℕ → R) :
    let r := fillClasses ((coefficients.take classes).map fun c => (sineTimes pi length).map (multisineAt c)) noise
      ((classSizes size classes).zipIdx.map fun p => (p.2, p.1)) 0
    SineSet pi size length classes coefficients noise (r.1.map fun x => [x]) r.2 := by
  dsimp only
  set models := (coefficients.take classes).map fun c => (sineTimes pi length).map (multisineAt c) with hmodels
  obtain ⟨h1, h2⟩ := fillClasses_spec models noise ((classSizes size classes).zipIdx.map fun p => (p.2, p.1)) 0
  rw [h2, h1]
  have hsum := classSizes_sum hk size
  rw [classSizes_eq hk] at hsum ⊢
  rw [numbered_tab]
  set f : ℕ → ℕ := fun c => size / classes + if 1 ≤ c ∧ c ≤ size % classes then 1 else 0 with hf
  set y := (tab classes fun i => (i, f i)).flatMap fun p => List.replicate p.2 p.1 with hy
  have hlen : y.length = size := by
    rw [hy, List.length_flatMap]
    simpa using hsum
  have hmod : ∀ c < classes, models.getD c [] = tab length fun t => multisineAt (coefficients.getD c []) (2 * pi * (t : R) / ((length : R) - 1)) := by
    intro c hcl
    have hcl' : c < coefficients.length := by omega
    rw [hmodels]
    simp [List.getD_eq_getElem?_getD, hcl, hcl', sineTimes]
  have hrows : ∀ s (hs : s < y.length), models.getD y[s] [] = tab length fun t => multisineAt (coefficients.getD y[s] []) (2 * pi * (t : R) / ((length : R) - 1)) :=
    fun s hs => hmod _ ((sorted_classes f classes).2 _ (List.getElem_mem hs))
  refine ⟨⟨by simpa using hlen, ?_⟩, hlen, (sorted_classes f classes).2, (sorted_classes f classes).1, ?_, ?_⟩
  · intro Z hZ
    obtain ⟨x, hx, rfl⟩ := List.mem_map.1 hZ
    obtain ⟨s, hs, rfl⟩ := List.mem_mapIdx.1 hx
    refine ⟨rfl, ?_⟩
    intro r hr
    rw [List.mem_singleton] at hr
    subst hr
    rw [List.length_mapIdx, hrows s hs, tab_length]
  · intro c hcl c' hcl'
    rw [hy, count_classes, count_classes, if_pos hcl, if_pos hcl', hf]
    dsimp only
    split <;> split <;> omega
  · intro s hs t ht
    have hs' : s < y.length := by omega
    have hrow := hrows s hs'
    rw [← multisineAt_eq]
    have e : y.getD s 0 = y[s] := by simp [List.getD_eq_getElem?_getD, hs']
    rw [e]
    have hg : (((y.mapIdx fun q c => (models.getD c []).mapIdx fun t v => v + noise (0 + q) t).map fun x => [x]).getD s []) =
        [(models.getD y[s] []).mapIdx fun t v => v + noise (0 + s) t] := by
      simp [List.getD_eq_getElem?_getD, hs']
    unfold at3
    rw [hg, hrow]
    simp [List.getD_eq_getElem?_getD, tab_getElem?, ht]

/-- **C124.** `multisine` returns a training set and a test set of the wanted sizes: the classes are `0, …, n_classes - 1`, all have the
same number of series up to one, and every series is the sum of sines `amplitude * sin(frequency * x + phaseshift)` of its
class, sampled at `length` equidistant points between 0 and 2π, plus its noise. -/
theorem C124_multisine [NpMath R] (pi : R) (trainSize testSize : ℕ) {length classes : ℕ} {coefficients : List (List (List R))} (hk : 0 < classes)
    (hc : classes ≤ coefficients.length) (hl : 0 < length) (noiseTrain noiseTest : ℕ → ℕ → R) :
    ∃ Xtrain ytrain Xtest ytest,
      multisine pi trainSize testSize length classes coefficients noiseTrain noiseTest = .ok (Xtrain, ytrain, Xtest, ytest) ∧
      SineSet pi trainSize length classes coefficients noiseTrain Xtrain ytrain ∧
      SineSet pi testSize length classes coefficients noiseTest Xtest ytest := by
  refine ⟨_, _, _, _, ?_, sineSet pi trainSize hk hc noiseTrain, sineSet pi testSize hk hc noiseTest⟩
  unfold multisine
  rw [if_neg (by omega), if_neg (by omega), if_neg (by omega)]

/-- The hypotheses hold for two classes with one and with two sines. -/
example [NpMath ℚ] (noise : ℕ → ℕ → ℚ) : ∃ Xtrain ytrain Xtest ytest,
    multisine 3 7 4 5 2 [[[1, 2, 0]], [[2, 1, 1], [1, 3, 0]]] noise noise = .ok (Xtrain, ytrain, Xtest, ytest) ∧ HasShape Xtrain 7 1 5 ∧ ytest.length = 4 := by
  obtain ⟨a, b, c, d, h1, h2, h3⟩ := C124_multisine (3 : ℚ) 7 4 (length := 5) (classes := 2) (coefficients := [[[1, 2, 0]], [[2, 1, 1], [1, 3, 0]]])
    (by omega) (by simp) (by omega) noise noise
  exact ⟨a, b, c, d, h1, h2.shape, h3.labels⟩

example : classSizes 100 3 = [33, 34, 33] ∧ classSizes 7 5 = [1, 2, 2, 1, 1] ∧ classSizes 2 4 = [0, 1, 1, 0] := by decide

end Fruits
