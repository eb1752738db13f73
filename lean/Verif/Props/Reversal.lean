import Verif.Props.Chen

/-! # C163: time reversal -/

namespace Fruits
set_option linter.unusedSectionVars false

variable {R : Type} [Field R] [LinearOrder R] [IsStrictOrderedRing R] [FloorRing R]

/-! ## Specification -/

/-- Every series of the dataset run backwards: `X[:, :, ::-1]`. -/
def reverseTime (X : Data R) : Data R := X.map fun s => s.map List.reverse

/-- The word with its extended letters in the opposite order: `[a][b][c]` becomes `[c][b][a]`. -/
def reverseWord (w : SWord R) : SWord R := { w with els := w.els.reverse }

/-- The last value of row `i` for series `j`. -/
def lastValue (A : Data R) (n i j : ℕ) : R := ((A.getD i []).getD j []).getD (n - 1) 0

/-! ## Proof -/

theorem entry_reverse {Z : List (List R)} {n : ℕ} (hZ : Rect Z n) (d : ℕ) {t : ℕ} (ht : t < n) :
    entry (Z.map List.reverse) d t = entry Z d (n - 1 - t) := by
  unfold entry
  rcases Nat.lt_or_ge d Z.length with hd | hd
  · have hl : (Z[d]).length = n := hZ _ (List.getElem_mem hd)
    have h1 : (Z.map List.reverse).getD d [] = (Z[d]).reverse := by simp [List.getD_eq_getElem?_getD, hd]
    have h2 : Z.getD d [] = Z[d] := by simp [List.getD_eq_getElem?_getD, hd]
    rw [h1, h2, List.getD_eq_getElem?_getD, List.getD_eq_getElem?_getD, List.getElem?_reverse (by omega), hl]
  · have h1 : (Z.map List.reverse).getD d [] = [] := by simp [List.getD_eq_getElem?_getD, hd]
    have h2 : Z.getD d [] = [] := by simp [List.getD_eq_getElem?_getD, hd]
    rw [h1, h2]; simp

theorem monomial_reverse {Z : List (List R)} {n : ℕ} (hZ : Rect Z n) (e : List ℤ) {t : ℕ} (ht : t < n) :
    monomial (Z.map List.reverse) e t = monomial Z e (n - 1 - t) := by
  unfold monomial
  exact Finset.prod_congr rfl fun d _ => by rw [entry_reverse hZ d ht]

theorem linform_reverse {Z : List (List R)} {n : ℕ} (hZ : Rect Z n) (e : List ℤ) {t : ℕ} (ht : t < n) :
    linform (Z.map List.reverse) e t = linform Z e (n - 1 - t) := by
  unfold linform
  exact Finset.sum_congr rfl fun d _ => by rw [entry_reverse hZ d ht]

/-- Sums over increasing tuples, run backwards. -/
theorem incSum_reverse (c : ℕ → ℕ → R) (p n : ℕ) : incSum (fun j t => c (p - 1 - j) (n - 1 - t)) p n = incSum c p n := by
  unfold incSum
  refine Finset.sum_bij' (fun i _ => fun j => n - 1 - i j.rev) (fun i _ => fun j => n - 1 - i j.rev) ?_ ?_ ?_ ?_ ?_
  · intro i hi
    rw [mem_incTuples] at hi ⊢
    refine ⟨fun j => by have := hi.1 j.rev; omega, fun a b hab => ?_⟩
    have h1 := hi.2 (Fin.rev_lt_rev.2 hab)
    have h2 := hi.1 a.rev
    dsimp only; omega
  · intro i hi
    rw [mem_incTuples] at hi ⊢
    refine ⟨fun j => by have := hi.1 j.rev; omega, fun a b hab => ?_⟩
    have h1 := hi.2 (Fin.rev_lt_rev.2 hab)
    have h2 := hi.1 a.rev
    dsimp only; omega
  · intro i hi
    rw [mem_incTuples] at hi
    funext j
    have := hi.1 j
    simp only [Fin.rev_rev]; omega
  · intro i hi
    rw [mem_incTuples] at hi
    funext j
    have := hi.1 j
    simp only [Fin.rev_rev]; omega
  · intro i hi
    refine Fintype.prod_equiv Fin.revPerm _ _ fun j => ?_
    simp only [Fin.revPerm_apply, Fin.rev_rev, Fin.val_rev]
    congr 1
    omega

theorem reverseWord_getD (w : SWord R) {k : ℕ} (hk : k < w.els.length) :
    (reverseWord w).els.getD k [] = w.els.getD (w.els.length - 1 - k) [] := by
  simp only [reverseWord, List.getD_eq_getElem?_getD]
  rw [List.getElem?_reverse hk]

theorem Admissible.reverse {X : Data R} {D n : ℕ} {words : List (SWord R)} (h : Admissible X D n words) :
    Admissible (reverseTime X) D n (words.map reverseWord) where
  data := by
    intro Z hZ
    obtain ⟨Z', hZ', rfl⟩ := List.mem_map.1 hZ
    obtain ⟨h1, h2⟩ := h.data Z' hZ'
    refine ⟨by simpa using h1, fun x hx => ?_⟩
    obtain ⟨y, hy, rfl⟩ := List.mem_map.1 hx
    rw [List.length_reverse, h2 y hy]
  dims := h.dims
  nonempty := by simpa using h.nonempty
  letters := by
    intro w hw
    obtain ⟨v, hv, rfl⟩ := List.mem_map.1 hw
    simpa [reverseWord] using h.letters v hv
  fits := by
    intro w hw el hel
    obtain ⟨v, hv, rfl⟩ := List.mem_map.1 hw
    exact h.fits v hv el (by simpa [reverseWord] using hel)

theorem NoZeroDivision.reverse {X : Data R} {D n : ℕ} {words : List (SWord R)} (hadm : Admissible X D n words) (h : NoZeroDivision X n words) :
    NoZeroDivision (reverseTime X) n (words.map reverseWord) := by
  intro w hw el hel d hd hneg Z hZ t ht
  obtain ⟨v, hv, rfl⟩ := List.mem_map.1 hw
  obtain ⟨Y, hY, rfl⟩ := List.mem_map.1 hZ
  rw [entry_reverse (hadm.data Y hY).2 d ht]
  exact h v hv el (by simpa [reverseWord] using hel) d hd hneg Y hY _ (by omega)

theorem Nonnegative.reverse {X : Data R} {D n : ℕ} {words : List (SWord R)} (hadm : Admissible X D n words) (h : Nonnegative X) :
    Nonnegative (reverseTime X) := by
  intro Z hZ d t
  obtain ⟨Y, hY, rfl⟩ := List.mem_map.1 hZ
  rcases Nat.lt_or_ge t n with ht | ht
  · rw [entry_reverse (hadm.data Y hY).2 d ht]
    exact h Y hY d _
  · unfold entry
    rw [List.getD_eq_getElem?_getD, List.getElem?_eq_none]
    · simp
    · rcases Nat.lt_or_ge d Y.length with hd | hd
      · have h1 : (Y.map List.reverse).getD d [] = (Y[d]).reverse := by simp [List.getD_eq_getElem?_getD, hd]
        rw [h1, List.length_reverse, (hadm.data Y hY).2 _ (List.getElem_mem hd)]
        exact ht
      · have h1 : (Y.map List.reverse).getD d [] = [] := by simp [List.getD_eq_getElem?_getD, hd]
        rw [h1]; simp

/-- Sets of values over weakly increasing tuples, run backwards. -/
theorem weak_reverse {p n : ℕ} (G H : ℕ → ℕ → R) (agg : (Fin p → R) → R) (hagg : ∀ v : Fin p → R, agg (fun k => v k.rev) = agg v)
    (h : ∀ k < p, ∀ t < n, H k t = G (p - 1 - k) (n - 1 - t)) (hn : 0 < n) :
    {v | ∃ i : Fin p → ℕ, Monotone i ∧ (∀ k, i k ≤ n - 1) ∧ v = agg fun k => H k (i k)} ⊆
      {v | ∃ i : Fin p → ℕ, Monotone i ∧ (∀ k, i k ≤ n - 1) ∧ v = agg fun k => G k (i k)} := by
  rintro v ⟨i, hi, hle, rfl⟩
  refine ⟨fun k => n - 1 - i k.rev, fun a b hab => ?_, fun k => by dsimp only; omega, ?_⟩
  · have := hi (Fin.rev_le_rev.2 hab)
    dsimp only; omega
  · rw [← hagg]
    congr 1
    funext k
    have := hle k.rev
    rw [h _ k.rev.2 _ (by omega), Fin.val_rev]
    congr 1
    omega

/-- The values of the tuples, written with a fixed number of letters. -/
theorem tuple_values {p n : ℕ} (els : List (List ℤ)) (hp : els.length = p) (f : List ℤ → ℕ → R) (agg : {q : ℕ} → (Fin q → R) → R) :
    {v | ∃ i : Fin els.length → ℕ, Monotone i ∧ (∀ k, i k ≤ n - 1) ∧ v = agg fun k => f els[k] (i k)}
      = {v | ∃ i : Fin p → ℕ, Monotone i ∧ (∀ k, i k ≤ n - 1) ∧ v = agg fun k => f (els.getD k []) (i k)} := by
  subst hp
  simp [List.getD_eq_getElem?_getD]

/-- The greatest values over weakly increasing tuples agree. -/
theorem greatest_reverse {n : ℕ} (hn : 0 < n) (w : SWord R) (f g : List ℤ → ℕ → R) (agg : {q : ℕ} → (Fin q → R) → R)
    (hagg : ∀ {q : ℕ} (v : Fin q → R), agg (fun k => v k.rev) = agg v) (h : ∀ el, ∀ t < n, g el t = f el (n - 1 - t)) {a b : R}
    (ha : IsGreatest {v | ∃ i : Fin w.els.length → ℕ, Monotone i ∧ (∀ k, i k ≤ n - 1) ∧ v = agg fun k => f w.els[k] (i k)} a)
    (hb : IsGreatest {v | ∃ i : Fin (reverseWord w).els.length → ℕ, Monotone i ∧ (∀ k, i k ≤ n - 1) ∧
      v = agg fun k => g (reverseWord w).els[k] (i k)} b) : b = a := by
  rw [tuple_values _ (p := w.els.length) (by simp [reverseWord]) g agg] at hb
  rw [tuple_values _ rfl f agg] at ha
  have e : ∀ k < w.els.length, ∀ t < n, (fun k t => g ((reverseWord w).els.getD k []) t) k t
      = (fun k t => f (w.els.getD k []) t) (w.els.length - 1 - k) (n - 1 - t) := by
    intro k hk t ht
    dsimp only
    rw [h _ t ht, reverseWord_getD w hk]
  have e' : ∀ k < w.els.length, ∀ t < n, (fun k t => f (w.els.getD k []) t) k t
      = (fun k t => g ((reverseWord w).els.getD k []) t) (w.els.length - 1 - k) (n - 1 - t) := by
    intro k hk t ht
    have := e (w.els.length - 1 - k) (by omega) (n - 1 - t) (by omega)
    rw [this, show w.els.length - 1 - (w.els.length - 1 - k) = k by omega, show n - 1 - (n - 1 - t) = t by omega]
  have hset := Set.Subset.antisymm (weak_reverse (fun k t => f (w.els.getD k []) t) (fun k t => g ((reverseWord w).els.getD k []) t) agg hagg e hn)
    (weak_reverse (fun k t => g ((reverseWord w).els.getD k []) t) (fun k t => f (w.els.getD k []) t) agg hagg e' hn)
  rw [hset] at hb
  exact hb.unique ha

/-- **C163**: run a series backwards and reverse the order of the extended letters: the iterated sum of the whole series (the last value of the
returned array) stays the same, in each of the three semirings. -/
theorem C163_reversal {expf : R → R} (hexp : ExpLike expf) {k : SemiringKind} (hk : k = .reals ∨ k = .arctic ∨ k = .bayesian) {X : Data R} {D n : ℕ}
    {words : List (SWord R)} (hadm : Admissible X D n words) (hdiv : NoZeroDivision X n words) (hpos : k = .bayesian → Nonnegative X) (hn : 0 < n) :
    ∃ A B, (⟨words.map .simple, .single, k, none⟩ : ISSConf R).transform expf X = .ok A ∧
      (⟨(words.map reverseWord).map .simple, .single, k, none⟩ : ISSConf R).transform expf (reverseTime X) = .ok B ∧
      ∀ i < words.length, ∀ j < X.length, lastValue B n i j = lastValue A n i j := by
  have hadm' := hadm.reverse
  have hdiv' := hdiv.reverse hadm
  rcases hk with rfl | rfl | rfl
  · refine ⟨_, _, C01_reals_iss hexp hadm hdiv, C01_reals_iss hexp hadm' hdiv', fun i hi j hj => ?_⟩
    have hZ : Rect X[j] n := (hadm.data _ (List.getElem_mem hj)).2
    simp only [lastValue, reverseTime, List.map_map, List.getD_eq_getElem?_getD, List.getElem?_map, List.getElem?_eq_getElem hi,
      List.getElem?_eq_getElem hj, Option.map_some, Option.getD_some, Function.comp]
    rw [← List.getD_eq_getElem?_getD, ← List.getD_eq_getElem?_getD, getD_tab (by omega), getD_tab (by omega), Nat.sub_add_cancel hn]
    have e : ∀ (Z : List (List R)) (els : List (List ℤ)), (∑ i ∈ incTuples els.length n, ∏ k : Fin els.length, monomial Z els[k] (i k))
        = incSum (fun j t => monomial Z (els.getD j []) t) els.length n := by
      intro Z els
      refine Finset.sum_congr rfl fun i _ => Finset.prod_congr rfl fun k _ => ?_
      simp [List.getD_eq_getElem?_getD]
    rw [e, e, show (reverseWord words[i]).els.length = words[i].els.length by simp [reverseWord]]
    rw [← incSum_reverse (fun q t => monomial (X[j]'hj) (words[i].els.getD q []) t)]
    refine incSum_congr fun k hk t ht => ?_
    rw [monomial_reverse hZ _ ht, reverseWord_getD _ hk]
  · obtain ⟨F, hF, h⟩ := C02_arctic_iss (expf := expf) hadm
    obtain ⟨F', hF', h'⟩ := C02_arctic_iss (expf := expf) hadm'
    refine ⟨_, _, hF, hF', fun i hi j hj => ?_⟩
    have hZ : Rect X[j] n := (hadm.data _ (List.getElem_mem hj)).2
    have hj' : j < (reverseTime X).length := by simpa [reverseTime] using hj
    simp only [lastValue, List.map_map, List.getD_eq_getElem?_getD, List.getElem?_map, List.getElem?_eq_getElem hi, List.getElem?_mapIdx,
      List.getElem?_eq_getElem hj, List.getElem?_eq_getElem hj', Option.map_some, Option.getD_some, Function.comp]
    rw [← List.getD_eq_getElem?_getD, ← List.getD_eq_getElem?_getD, getD_tab (by omega), getD_tab (by omega)]
    exact greatest_reverse hn words[i] (fun el t => linform X[j] el t) (fun el t => linform (reverseTime X)[j] el t) (fun v => ∑ k, v k)
      (fun v => Fintype.sum_equiv Fin.revPerm _ _ fun _ => rfl)
      (fun el t ht => by simp only [reverseTime, List.getElem_map]; exact linform_reverse hZ el ht)
      (h words[i] (List.getElem_mem hi) j hj (n - 1) (by omega))
      (h' (reverseWord words[i]) (List.mem_map.2 ⟨_, List.getElem_mem hi, rfl⟩) j hj' (n - 1) (by omega))
  · obtain ⟨F, hF, h⟩ := C03_bayesian_iss hexp hadm hdiv (hpos rfl)
    obtain ⟨F', hF', h'⟩ := C03_bayesian_iss hexp hadm' hdiv' ((hpos rfl).reverse hadm)
    refine ⟨_, _, hF, hF', fun i hi j hj => ?_⟩
    have hZ : Rect X[j] n := (hadm.data _ (List.getElem_mem hj)).2
    have hj' : j < (reverseTime X).length := by simpa [reverseTime] using hj
    simp only [lastValue, List.map_map, List.getD_eq_getElem?_getD, List.getElem?_map, List.getElem?_eq_getElem hi, List.getElem?_mapIdx,
      List.getElem?_eq_getElem hj, List.getElem?_eq_getElem hj', Option.map_some, Option.getD_some, Function.comp]
    rw [← List.getD_eq_getElem?_getD, ← List.getD_eq_getElem?_getD, getD_tab (by omega), getD_tab (by omega)]
    exact greatest_reverse hn words[i] (fun el t => monomial X[j] el t) (fun el t => monomial (reverseTime X)[j] el t) (fun v => ∏ k, v k)
      (fun v => Fintype.prod_equiv Fin.revPerm _ _ fun _ => rfl)
      (fun el t ht => by simp only [reverseTime, List.getElem_map]; exact monomial_reverse hZ el ht)
      (h words[i] (List.getElem_mem hi) j hj (n - 1) (by omega))
      (h' (reverseWord words[i]) (List.mem_map.2 ⟨_, List.getElem_mem hi, rfl⟩) j hj' (n - 1) (by omega))

/-! ### Examples -/

namespace ReversalExample

/-- Two series in two dimensions. -/
def X : Data ℚ := [[[1, 2, 3], [0, 1, 5]], [[4, 0, 2], [3, 1, 1]]]
/-- `[1][12][2]` -/
def w : SWord ℚ := ⟨[[1], [1, 1], [0, 1]], 2, "[1][12][2]".toList, none⟩

theorem adm : Admissible X 2 3 [w] where
  data := by simp [IsData, Rect, X]
  dims := by omega
  nonempty := by simp
  letters := by simp [w]
  fits := by simp [w]

theorem div : NoZeroDivision X 3 [w] := by
  intro v hv el hel d hd hneg
  rw [List.mem_singleton.1 hv] at hel
  simp only [w, List.mem_cons, List.not_mem_nil, or_false] at hel
  rcases hel with rfl | rfl | rfl <;> rcases d with _ | _ | d <;> simp at hneg hd

theorem nonneg : Nonnegative X := by
  intro Z hZ d t
  simp only [X, List.mem_cons, List.not_mem_nil, or_false] at hZ
  rcases hZ with rfl | rfl <;> rcases d with _ | _ | d <;> rcases t with _ | _ | _ | t <;> simp [entry]

/-- The hypotheses hold, the values agree and are not trivial: `1 * (2 * 1) * 5 = 10` for the first series. -/
example : Admissible X 2 3 [w] ∧ NoZeroDivision X 3 [w] ∧ Nonnegative X ∧ ExpLike (fun _ : ℚ => (1 : ℚ)) ∧
    reverseTime X = [[[3, 2, 1], [5, 1, 0]], [[2, 0, 4], [1, 1, 3]]] ∧ (reverseWord w).els = [[0, 1], [1, 1], [1]] ∧
    issVal (fun _ => 1) .reals 1 X w 0 2 = 10 ∧ issVal (fun _ => 1) .reals 1 (reverseTime X) (reverseWord w) 0 2 = 10 ∧
    issVal (fun _ => 1) .arctic 0 X w 1 2 = 14 ∧ issVal (fun _ => 1) .arctic 0 (reverseTime X) (reverseWord w) 1 2 = 14 :=
  ⟨adm, div, nonneg, ⟨by simp, by simp⟩, by decide +kernel, by decide +kernel, by decide +kernel, by decide +kernel,
    by decide +kernel, by decide +kernel⟩

end ReversalExample
end Fruits
