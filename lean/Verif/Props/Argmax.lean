import Verif.Props.Plan

/-! # C15: positions of the maxima of `Arctic(argmax=True)` -/

set_option linter.unusedSectionVars false

namespace Fruits
variable {R : Type} [Field R] [LinearOrder R] [IsStrictOrderedRing R] [FloorRing R]

/-- The position of the running maximum (the first one attaining it). -/
def argMax (f : ℕ → R) : ℕ → ℕ
  | 0 => 0
  | t + 1 => if runMax f t ≥ f (t + 1) then argMax f t else t + 1

theorem argMax_spec (f : ℕ → R) (t : ℕ) : argMax f t ≤ t ∧ f (argMax f t) = runMax f t := by
  induction t with
  | zero => exact ⟨le_rfl, rfl⟩
  | succ t ih =>
    simp only [argMax, runMax]
    split
    · rename_i h
      exact ⟨by omega, by rw [ih.2, max_eq_left h]⟩
    · rename_i h
      exact ⟨le_rfl, (max_eq_right (le_of_lt (not_le.1 h))).symm⟩

theorem argmax_fold (n : ℕ) (f : ℕ → R) (k : ℕ) (hk : k ≤ n - 1) :
    (List.range' 1 k).foldl
      (fun (r : List R × List R) i =>
        if r.1.getD (i - 1) 0 ≥ (tab n f).getD i 0
        then (r.1.set i (r.1.getD (i - 1) 0), r.2.set i (r.2.getD (i - 1) 0))
        else (r.1.set i ((tab n f).getD i 0), r.2.set i (i : R)))
      (tab n (fun t => if t ≤ 0 then runMax f t else 0), tab n (fun t => if t ≤ 0 then (argMax f t : R) else 0))
    = (tab n (fun t => if t ≤ k then runMax f t else 0), tab n (fun t => if t ≤ k then (argMax f t : R) else 0)) := by
  induction k with
  | zero => rfl
  | succ k ih =>
    rw [List.range'_concat, List.foldl_append, ih (by omega)]
    simp only [List.foldl_cons, List.foldl_nil, Nat.one_mul]
    have h1 : 1 + k - 1 = k := by omega
    have hk1 : 1 + k < n := by omega
    rw [h1, getD_tab hk1, getD_tab (show k < n by omega), getD_tab (show k < n by omega), if_pos le_rfl, if_pos le_rfl]
    have hset : ∀ (g h : ℕ → R) (v : R), (∀ t, t ≠ 1 + k → g t = h t) → v = h (1 + k) → (tab n g).set (1 + k) v = tab n h := by
      intro g h v hgh hv
      apply List.ext_getElem
      · simp
      intro t ht1 ht2
      rw [List.getElem_set]
      simp only [tab_getElem]
      split
      · rename_i e; rw [hv, e]
      · exact hgh t (fun e => by omega)
    have hne : ∀ (u : ℕ → R) t, t ≠ 1 + k → (if t ≤ k then u t else 0) = if t ≤ k + 1 then u t else 0 := by
      intro u t ht
      by_cases h : t ≤ k
      · rw [if_pos h, if_pos (by omega)]
      · rw [if_neg h, if_neg (by omega)]
    by_cases hc : runMax f k ≥ f (1 + k)
    · rw [if_pos hc]
      refine Prod.ext (hset _ _ _ (hne _) ?_) (hset _ _ _ (hne fun t => (argMax f t : R)) ?_)
      · rw [if_pos (by omega), show 1 + k = k + 1 by omega, runMax, max_eq_left]
        rwa [show k + 1 = 1 + k by omega]
      · beta_reduce
        rw [if_pos (by omega), show 1 + k = k + 1 by omega, argMax, if_pos]
        rwa [show k + 1 = 1 + k by omega]
    · rw [if_neg hc]
      refine Prod.ext (hset _ _ _ (hne _) ?_) (hset _ _ _ (hne fun t => (argMax f t : R)) ?_)
      · rw [if_pos (by omega), show 1 + k = k + 1 by omega, runMax, max_eq_right]
        rw [show k + 1 = 1 + k by omega]
        exact le_of_lt (not_le.1 hc)
      · beta_reduce
        rw [if_pos (by omega), show 1 + k = k + 1 by omega, argMax, if_neg]
        rwa [show k + 1 = 1 + k by omega]

theorem argmaxRows_tab {n : ℕ} (hn : 0 < n) (f : ℕ → R) : argmaxRows (tab n f) = (tab n (runMax f), tab n fun t => (argMax f t : R)) := by
  unfold argmaxRows
  rw [tab_length]
  have e1 : (zeros n : List R).set 0 ((tab n f).getD 0 0) = tab n (fun t => if t ≤ 0 then runMax f t else 0) := by
    rw [getD_tab hn, zeros_eq]
    apply List.ext_getElem
    · simp
    intro t h1 h2
    rw [List.getElem_set]
    simp only [tab_getElem]
    by_cases h : t = 0
    · subst h; simp [runMax]
    · rw [if_neg (by omega), if_neg (by omega)]
  have e2 : (zeros n : List R) = tab n (fun t => if t ≤ 0 then (argMax f t : R) else 0) := by
    rw [zeros_eq]
    apply tab_congr
    intro t _
    by_cases h : t ≤ 0
    · rw [if_pos h, Nat.le_zero.1 h]; simp [argMax]
    · rw [if_neg h]
  rw [e1]
  conv_lhs => rw [e2]
  rw [argmax_fold n f (n - 1) le_rfl]
  refine Prod.ext (tab_congr fun t ht => if_pos (by omega)) (tab_congr fun t ht => if_pos (by omega))

/-- The values of letter `k` plus the best value of the letters before it. -/
def argStep (Z : List (List R)) (word : List (List ℤ)) (k s : ℕ) : R :=
  chainMax (· + ·) 0 (lins Z word) k s + lins Z word k s

theorem chainMax_argStep (Z : List (List R)) (word : List (List ℤ)) (k t : ℕ) :
    chainMax (· + ·) 0 (lins Z word) (k + 1) t = runMax (argStep Z word k) t := rfl

theorem argmaxLoop_rows {Z : List (List R)} {n : ℕ} (hn : 0 < n) (hZ : Rect Z n) (hne : Z ≠ []) {word : List (List ℤ)}
    (hfit : ∀ el ∈ word, Fits Z el) (hlet : ∀ el ∈ word, ∃ e ∈ el, e ≠ 0) (alpha : List R) :
    (argmaxLoop Z word alpha (zeros n)).length = 2 * word.length ∧ ∀ k < word.length,
      row (argmaxLoop Z word alpha (zeros n)) (2 * k) = tab n (runMax (argStep Z word k)) ∧
      row (argmaxLoop Z word alpha (zeros n)) (2 * k + 1) = tab n fun t => (argMax (argStep Z word k) t : R) := by
  unfold argmaxLoop
  rw [ncols_eq hZ hne]
  have h0 : ∀ a : R, vscale (zeros n) a = tab n fun _ => (0 : R) := by
    intro a
    rw [zeros_eq]
    simp [vscale]
  have := enumFold_inv (fun k el (s : List R × List (List R)) =>
      let tmp := s.1
      let result := s.2
      if el.all (· == 0) then (tmp, result) else
      let C := lettersAdd Z el (zeros n)
      let tmp := vadd tmp C
      let tmp := if k > 0 then vsub tmp (vscale (zeros n) (alpha.getD (k - 1) 0)) else tmp
      let rows := argmaxRows tmp
      let result := (result.set (2 * k) rows.1).set (2 * k + 1) rows.2
      let tmp := if k < word.length - 1
        then maxLoop (vadd tmp (vscale (zeros n) (alpha.getD k 0))) else tmp
      (tmp, result))
    (fun k s => (k < word.length → s.1 = tab n fun t => chainMax (· + ·) 0 (lins Z word) k t) ∧ s.2.length = 2 * word.length ∧
      ∀ j < k, row s.2 (2 * j) = tab n (runMax (argStep Z word j)) ∧ row s.2 (2 * j + 1) = tab n fun t => (argMax (argStep Z word j) t : R))
    0 word (zeros n, List.replicate (2 * word.length) (zeros n))
    ⟨fun _ => by simp [chainMax, zeros_eq], by simp, fun j hj => by omega⟩ ?_
  · rw [Nat.zero_add] at this
    exact this.2
  · intro j hj s hs
    rw [Nat.zero_add] at hs ⊢
    obtain ⟨i1, i2, i3⟩ := hs
    have hel := List.getElem_mem hj
    have hnz : (word[j].all (· == 0)) = false := by
      obtain ⟨e, he, hne⟩ := hlet _ hel
      rw [List.all_eq_false]
      exact ⟨e, he, by simpa using hne⟩
    simp only [hnz, Bool.false_eq_true, if_false]
    have htmp : (if j > 0 then vsub (vadd s.1 (lettersAdd Z word[j] (zeros n))) (vscale (zeros n) (alpha.getD (j - 1) 0))
        else vadd s.1 (lettersAdd Z word[j] (zeros n))) = tab n (argStep Z word j) := by
      have e : vadd s.1 (lettersAdd Z word[j] (zeros n)) = tab n (argStep Z word j) := by
        rw [i1 hj, zeros_eq, lettersAdd_tab hZ (hfit _ hel), vadd_tab]
        apply tab_congr
        intro t _
        unfold argStep
        simp [lins, List.getD_eq_getElem?_getD, hj]
      rw [e]
      split
      · rw [h0, vsub_tab]
        simp
      · rfl
    rw [htmp, argmaxRows_tab hn]
    refine ⟨fun hj1 => ?_, by simp [i2], ?_⟩
    · rw [if_pos (by omega), h0, vadd_tab, maxLoop_tab]
      apply tab_congr
      intro t _
      rw [chainMax_argStep]
      congr 1
      funext s
      simp
    · intro i hi
      unfold row at *
      simp only [List.getD_eq_getElem?_getD, List.getElem?_set, List.length_set] at *
      rcases Nat.lt_or_ge i j with hij | hij
      · have := i3 i hij
        constructor
        · rw [if_neg (by omega), if_neg (by omega)]; exact this.1
        · rw [if_neg (by omega), if_neg (by omega)]; exact this.2
      · obtain rfl : i = j := by omega
        constructor
        · rw [if_neg (by omega), if_pos rfl, if_pos (by omega)]; rfl
        · rw [if_pos rfl, if_pos (by omega)]; rfl

/-! ### The back-translation of the positions -/

theorem row_set_self {A : List (List R)} {i : ℕ} (h : i < A.length) (r : List R) : row (A.set i r) i = r := by
  unfold row
  simp [List.getD_eq_getElem?_getD, h]

theorem row_set_ne {A : List (List R)} {i j : ℕ} (h : i ≠ j) (r : List R) : row (A.set i r) j = row A j := by
  unfold row
  simp [List.getD_eq_getElem?_getD, List.getElem?_set, h]

theorem cut_last {n p : ℕ} (hp : p < n) (f : ℕ → R) :
    ((tab n f).take (p + 1) ++ List.replicate (n - (p + 1)) ((tab n f).getD (p + 1 - 1) 0)).length = n ∧
    ((tab n f).take (p + 1) ++ List.replicate (n - (p + 1)) ((tab n f).getD (p + 1 - 1) 0)).getD (n - 1) 0 = f p := by
  have hl : ((tab n f).take (p + 1)).length = p + 1 := by simp; omega
  constructor
  · rw [List.length_append, hl]; simp; omega
  · rw [Nat.add_sub_cancel, getD_tab hp, List.getD_eq_getElem?_getD]
    by_cases h : n - 1 < p + 1
    · have : n - 1 = p := by omega
      rw [List.getElem?_append_left (by omega), this, List.getElem?_take, if_pos (by omega), ← this,
        List.getElem?_eq_getElem (by simp; omega)]
      simp
    · rw [List.getElem?_append_right (by omega), hl, List.getElem?_replicate, if_pos (by omega)]
      rfl

/-- The inner loop writes `pos (u+1) ↦ a u (pos (u+1))` into the last columns. -/
theorem translateInner_spec {n K : ℕ} {result : List (List R)} {a : ℕ → ℕ → ℕ} (ha : ∀ u t, a u t ≤ t)
    (hres : ∀ u < K, row result (2 * u + 1) = tab n fun t => (a u t : R)) (index : ℕ) :
    ∀ (s : ℕ) (tr : List (List R)) (p : ℕ), s ≤ K → p < n → index + s + 1 < tr.length →
      (row tr (index + s + 1)).getD (n - 1) 0 = (p : R) →
      ∃ pos : ℕ → ℕ, pos s = p ∧ (∀ u < s, pos u = a u (pos (u + 1))) ∧
        (translateInner n result index s tr).length = tr.length ∧
        (∀ u ≤ s, (row (translateInner n result index s tr) (index + u + 1)).getD (n - 1) 0 = (pos u : R)) ∧
        (∀ u < s, (row (translateInner n result index s tr) (index + u + 1)).length = n) ∧
        ∀ r, r ≤ index ∨ index + s < r → row (translateInner n result index s tr) r = row tr r := by
  intro s
  induction s with
  | zero =>
    intro tr p _ _ _ hr
    refine ⟨fun _ => p, rfl, fun u hu => by omega, rfl, fun u hu => ?_, fun u hu => by omega, fun r _ => rfl⟩
    obtain rfl : u = 0 := by omega
    exact hr
  | succ s ih =>
    intro tr p hs hp hlen hr
    have hc : (⌊(row tr (index + (s + 1) + 1)).getD (n - 1) 0⌋ + 1).toNat = p + 1 := by
      rw [hr, Int.floor_natCast]
      omega
    obtain ⟨c1, c2⟩ := cut_last hp fun t => (a s t : R)
    simp only [translateInner]
    rw [hc, hres s (by omega)]
    obtain ⟨pos, h1, h2, h3, h4, h5, h6⟩ := ih (tr.set (index + (s + 1)) ((tab n fun t => (a s t : R)).take (p + 1) ++
      List.replicate (n - (p + 1)) ((tab n fun t => (a s t : R)).getD (p + 1 - 1) 0))) (a s p) (by omega)
      (lt_of_le_of_lt (ha s p) hp) (by rw [List.length_set]; omega)
      (by rw [← Nat.add_assoc, row_set_self (by omega), c2])
    refine ⟨fun u => if u ≤ s then pos u else p, by simp, ?_, by rw [h3, List.length_set], ?_, ?_, ?_⟩
    · intro u hu
      beta_reduce
      rw [if_pos (by omega)]
      rcases Nat.lt_or_ge u s with hus | hus
      · rw [if_pos (by omega), h2 u hus]
      · obtain rfl : u = s := by omega
        rw [if_neg (by omega), h1]
    · intro u hu
      rcases Nat.lt_or_ge s u with hus | hus
      · obtain rfl : u = s + 1 := by omega
        beta_reduce
        rw [h6 _ (by omega), row_set_ne (by omega), if_neg (by omega), hr]
      · beta_reduce
        rw [if_pos hus, h4 u hus]
    · intro u hu
      rcases Nat.lt_or_ge u s with hus | hus
      · exact h5 u hus
      · obtain rfl : u = s := by omega
        rw [h6 _ (by omega), ← Nat.add_assoc, row_set_self (by omega), c1]
    · intro r hr'
      rw [h6 r (by omega), row_set_ne (by omega)]

theorem triIndex_succ (k : ℕ) : triIndex (k + 1) = triIndex k + k + 2 := by
  unfold triIndex
  have : (k + 1) * (k + 1 + 1) = k * (k + 1) + 2 * (k + 1) := by ring
  rw [this, Nat.add_mul_div_left _ _ (by norm_num)]
  omega

theorem triIndex_mono {j k : ℕ} (h : j ≤ k) : triIndex j ≤ triIndex k := by
  induction k with
  | zero => rw [Nat.le_zero.1 h]
  | succ k ih =>
    rcases Nat.lt_or_ge k j with h' | h'
    · rw [show j = k + 1 by omega]
    · have := ih h'; rw [triIndex_succ]; omega

/-- What the rows of the prefix of length `k + 1` are after the back-translation. -/
theorem translateLoop_spec {n K : ℕ} (hn : 0 < n) {result : List (List R)} {a : ℕ → ℕ → ℕ} {v : ℕ → ℕ → R} (ha : ∀ u t, a u t ≤ t)
    (hres : ∀ u < K, row result (2 * u) = tab n (v u) ∧ row result (2 * u + 1) = tab n fun t => (a u t : R)) :
    ∀ (k : ℕ) (tr : List (List R)), k ≤ K → triIndex k ≤ tr.length →
      (translateLoop n result k tr).length = tr.length ∧
      (∀ r, triIndex k ≤ r → row (translateLoop n result k tr) r = row tr r) ∧
      ∀ j < k, row (translateLoop n result k tr) (triIndex j) = tab n (v j) ∧
        ∃ pos : ℕ → ℕ, pos j = a j (n - 1) ∧ (∀ u < j, pos u = a u (pos (u + 1))) ∧
          ∀ u ≤ j, (row (translateLoop n result k tr) (triIndex j + u + 1)).length = n ∧
            (row (translateLoop n result k tr) (triIndex j + u + 1)).getD (n - 1) 0 = (pos u : R) := by
  intro k
  induction k with
  | zero => intro tr _ _; exact ⟨rfl, fun _ _ => rfl, fun j hj => by omega⟩
  | succ k ih =>
    intro tr hk hlen
    rw [triIndex_succ] at hlen
    simp only [translateLoop]
    set tr2 := (tr.set (triIndex k) (row result (2 * k))).set (triIndex k + k + 1) (row result (2 * k + 1)) with htr2
    have hl2 : tr2.length = tr.length := by simp [htr2]
    have hlast : row tr2 (triIndex k + k + 1) = tab n fun t => (a k t : R) := by
      rw [htr2, row_set_self (by rw [List.length_set]; omega), (hres k (by omega)).2]
    obtain ⟨pos, h1, h2, h3, h4, h5, h6⟩ := translateInner_spec ha (fun u hu => (hres u hu).2) (triIndex k) k tr2 (a k (n - 1)) (by omega)
      (by have := ha k (n - 1); omega) (by omega) (by rw [hlast, getD_tab (by omega)])
    set tr3 := translateInner n result (triIndex k) k tr2 with htr3
    obtain ⟨g1, g2, g3⟩ := ih tr3 (by omega) (by omega)
    refine ⟨by rw [g1, h3, hl2], ?_, ?_⟩
    · intro r hr
      rw [triIndex_succ] at hr
      rw [g2 r (by omega), h6 r (by omega), htr2, row_set_ne (by omega), row_set_ne (by omega)]
    · intro j hj
      rcases Nat.lt_or_ge j k with hjk | hjk
      · exact g3 j hjk
      · obtain rfl : j = k := by omega
        refine ⟨?_, pos, h1, h2, fun u hu => ?_⟩
        · rw [g2 _ le_rfl, h6 _ (Or.inl le_rfl), htr2, row_set_ne (by omega), row_set_self (by omega), (hres j (by omega)).1]
        · rw [g2 _ (by omega)]
          refine ⟨?_, h4 u hu⟩
          rcases Nat.lt_or_ge u j with huj | huj
          · exact h5 u huj
          · obtain rfl : u = j := by omega
            rw [h6 _ (Or.inr (by omega)), hlast, tab_length]

/-- Following the positions backwards adds up to the maximum. -/
theorem chain_of_pos (Z : List (List R)) (word : List (List ℤ)) (pos : ℕ → ℕ) (j t : ℕ) (hj : pos j = argMax (argStep Z word j) t)
    (hu : ∀ u < j, pos u = argMax (argStep Z word u) (pos (u + 1))) :
    chainMax (· + ·) 0 (lins Z word) (j + 1) t = ∑ s ∈ Finset.range (j + 1), lins Z word s (pos s) ∧
    pos j ≤ t ∧ ∀ u < j, pos u ≤ pos (u + 1) := by
  induction j generalizing t with
  | zero =>
    have := argMax_spec (argStep Z word 0) t
    refine ⟨?_, by rw [hj]; exact this.1, fun u hu => by omega⟩
    rw [chainMax_argStep, ← this.2, ← hj]
    simp [argStep, chainMax]
  | succ j ih =>
    have := argMax_spec (argStep Z word (j + 1)) t
    obtain ⟨i1, i2, i3⟩ := ih (pos (j + 1)) (hu j (by omega)) fun u hu' => hu u (by omega)
    refine ⟨?_, by rw [hj]; exact this.1, fun u hu' => ?_⟩
    · rw [chainMax_argStep, ← this.2, ← hj, argStep, i1, Finset.sum_range_succ _ (j + 1)]
    · rcases Nat.lt_or_ge u j with h | h
      · exact i3 u h
      · obtain rfl : u = j := by omega
        exact i2

/-- The kernel: values and positions of every prefix. -/
theorem arcticArgmax_spec {Z : List (List R)} {n : ℕ} (hn : 0 < n) (hZ : Rect Z n) (hne : Z ≠ []) {word : List (List ℤ)}
    (hfit : ∀ el ∈ word, Fits Z el) (hlet : ∀ el ∈ word, ∃ e ∈ el, e ≠ 0) (alpha : List R) {k : ℕ} (hk : k < word.length) :
    (∀ t < n, IsGreatest {v | ∃ i : Fin (k + 1) → ℕ, Monotone i ∧ (∀ s, i s ≤ t) ∧
        v = ∑ s : Fin (k + 1), linform Z (word.getD s []) (i s)} ((row (arcticArgmax Z word alpha (zeros n)) (triIndex k)).getD t 0)) ∧
    ∃ pos : Fin (k + 1) → ℕ, Monotone pos ∧ (∀ s, pos s ≤ n - 1) ∧
      (row (arcticArgmax Z word alpha (zeros n)) (triIndex k)).getD (n - 1) 0 = ∑ s : Fin (k + 1), linform Z (word.getD s []) (pos s) ∧
      ∀ s : Fin (k + 1), (row (arcticArgmax Z word alpha (zeros n)) (triIndex k + s + 1)).getD (n - 1) 0 = (pos s : R) := by
  unfold arcticArgmax
  rw [ncols_eq hZ hne]
  obtain ⟨-, hrows⟩ := argmaxLoop_rows hn hZ hne hfit hlet alpha
  obtain ⟨-, -, h3⟩ := translateLoop_spec (K := word.length) hn (result := argmaxLoop Z word alpha (zeros n))
    (a := fun u t => argMax (argStep Z word u) t) (v := fun u => runMax (argStep Z word u))
    (fun u t => (argMax_spec _ t).1) hrows word.length (List.replicate (triIndex word.length) (zeros n)) le_rfl (by simp)
  obtain ⟨h4, pos, p1, p2, p3⟩ := h3 k hk
  rw [h4]
  obtain ⟨c1, c2, c3⟩ := chain_of_pos Z word pos k (n - 1) p1 p2
  have hmono : ∀ u v, u ≤ v → v ≤ k → pos u ≤ pos v := by
    intro u v huv hv
    induction v with
    | zero => rw [Nat.le_zero.1 huv]
    | succ v ih =>
      rcases Nat.lt_or_ge v u with h | h
      · rw [show u = v + 1 by omega]
      · exact (ih h (by omega)).trans (c3 v (by omega))
  refine ⟨fun t ht => ?_, fun s => pos s, fun u v huv => hmono u v huv (by omega), fun s => ?_, ?_, fun s => (p3 s (by omega)).2⟩
  · rw [getD_tab ht, ← chainMax_argStep]
    have := chainMax_isGreatest (· + ·) (0 : R) (lins Z word) (k + 1) n (fun j _ s _ x y hxy => by simpa using hxy) t ht
    convert this using 2
    simp only [chainVal_add, zero_add, WeakTuple, and_assoc, lins]
  · exact (hmono s k (by omega) le_rfl).trans c2
  · rw [getD_tab (by omega), ← chainMax_argStep, c1, Finset.sum_range]
    rfl

/-- The first row of word `i` in the result of `Arctic(argmax=True)`: a word of length `p` takes
`p` rows for the values and `p (p + 1) / 2` rows for the positions. -/
def argmaxOffset (words : List (SWord R)) (i : ℕ) : ℕ :=
  ((words.take i).map fun w => w.els.length + w.els.length * (w.els.length + 1) / 2).sum

theorem wordRows_argmax (expf : R → R) {c : ISSConf R} (hs : c.semiring = .arcticArgmax) (hw : c.weighting = none) (X : Data R) (i : ℕ) (w : SWord R) :
    (c.wordRows expf X i (.simple w)).length = triIndex w.els.length ∧
    ∀ (j : ℕ) (hj : j < X.length), ∀ r < triIndex w.els.length, ((c.wordRows expf X i (.simple w)).getD r []).getD j [] =
      row (arcticArgmax X[j] w.els (zeros w.els.length) (zeros (ncols X[j]))) r := by
  have e : c.wordRows expf X i (.simple w) = swapAxes (triIndex w.els.length) (X.mapIdx fun j Z =>
      arcticArgmax Z w.els (zeros w.els.length) ((X.map fun Z => (zeros (ncols Z) : List R)).getD j [])) := by
    unfold ISSConf.wordRows iteratedSums
    rw [hs, hw]
    rfl
  rw [e]
  refine ⟨by simp, fun j hj r hr => ?_⟩
  unfold swapAxes
  rw [getD_tab hr]
  simp [List.getD_eq_getElem?_getD, hj, row]

theorem argmax_at {expf : R → R} {words : List (SWord R)} (hne : words ≠ []) (X : Data R) :
    ∃ A, (⟨words.map .simple, .extended, .arcticArgmax, none⟩ : ISSConf R).transform expf X = .ok A ∧
      A.length = argmaxOffset words words.length ∧
      ∀ (i : ℕ) (hi : i < words.length) (j : ℕ) (hj : j < X.length), ∀ r < triIndex words[i].els.length, ∀ t,
        at3 A (argmaxOffset words i + r) j t =
          (row (arcticArgmax X[j] words[i].els (zeros words[i].els.length) (zeros (ncols X[j]))) r).getD t 0 := by
  have hus : (⟨words.map .simple, .extended, .arcticArgmax, none⟩ : ISSConf R).Usable :=
    fun _ => ⟨rfl, fun w hw => by obtain ⟨s, _, rfl⟩ := List.mem_map.1 hw; exact ⟨s, rfl⟩⟩
  refine ⟨_, transform_eq expf hus (by simpa using hne) X, ?_⟩
  have hlen : ∀ (c : ISSConf R), c.semiring = .arcticArgmax → c.weighting = none → ∀ (ws : List (SWord R)) (i : ℕ),
      (c.blockRows expf X i (ws.map .simple)).length = (ws.map fun w => triIndex w.els.length).sum := by
    intro c h1 h2 ws
    induction ws with
    | nil => intro i; rfl
    | cons w ws ih =>
      intro i
      rw [List.map_cons, ISSConf.blockRows, List.length_append, (wordRows_argmax expf h1 h2 X i w).1, ih, List.map_cons, List.sum_cons]
  generalize hc : (⟨words.map .simple, .extended, .arcticArgmax, none⟩ : ISSConf R) = c
  have h1 : c.semiring = .arcticArgmax := by rw [← hc]
  have h2 : c.weighting = none := by rw [← hc]
  have h3 : c.words = words.map .simple := by rw [← hc]
  rw [h3]
  refine ⟨by rw [hlen c h1 h2, argmaxOffset, List.take_length]; rfl, ?_⟩
  intro i hi j hj r hr t
  have hsplit : words = words.take i ++ words[i] :: words.drop (i + 1) := by rw [List.getElem_cons_drop, List.take_append_drop]
  have hl := hlen c h1 h2 (words.take i) 0
  obtain ⟨w1, w2⟩ := wordRows_argmax expf h1 h2 X (words.take i).length words[i]
  rw [at3, ← w2 j hj r hr]
  congr 2
  have : c.blockRows expf X 0 (words.map .simple) = c.blockRows expf X 0 ((words.take i).map .simple) ++
      (c.wordRows expf X (words.take i).length (.simple words[i]) ++ c.blockRows expf X ((words.take i).length + 1) ((words.drop (i + 1)).map .simple)) := by
    conv_lhs => rw [hsplit, List.map_append, List.map_cons]
    rw [blockRows_append, ISSConf.blockRows]
    simp
  rw [this, List.getD_eq_getElem?_getD, List.getD_eq_getElem?_getD, List.getElem?_append_right (by rw [hl]; exact Nat.le_add_right _ _), hl]
  rw [show argmaxOffset words i + r - ((words.take i).map fun w => triIndex w.els.length).sum = r from Nat.add_sub_cancel_left ..]
  rw [List.getElem?_append_left (by rw [w1]; exact hr)]

/-- **C15.**  `ISS(words, mode=EXTENDED, semiring=Arctic(argmax=True))` without a weighting, words without empty
letters: word `i` starts at row `argmaxOffset words i`; its prefix of length `k + 1` starts `k + k (k + 1) / 2` rows further.
The first row of the prefix holds the Arctic iterated sums of the prefix, and the last columns of the `k + 1` rows
after it are time steps `pos 0 ≤ … ≤ pos k` at which the value in the last column is attained. -/
theorem C15_argmax (expf : R → R) {X : Data R} {D n : ℕ} {words : List (SWord R)} (hadm : Admissible X D n words) (hn : 0 < n)
    (hlet : ∀ w ∈ words, ∀ el ∈ w.els, ∃ e ∈ el, e ≠ 0) :
    ∃ A, (⟨words.map .simple, .extended, .arcticArgmax, none⟩ : ISSConf R).transform expf X = .ok A ∧
      A.length = argmaxOffset words words.length ∧
      ∀ (i : ℕ) (hi : i < words.length) (j : ℕ) (hj : j < X.length) (k : ℕ), (hk : k < words[i].els.length) →
        ∀ o, o = argmaxOffset words i + (k + k * (k + 1) / 2) →
        (∀ t < n, IsGreatest {v | ∃ i' : Fin (k + 1) → ℕ, Monotone i' ∧ (∀ s, i' s ≤ t) ∧
            v = ∑ s : Fin (k + 1), linform X[j] (words[i].els[s]) (i' s)} (at3 A o j t)) ∧
        ∃ pos : Fin (k + 1) → ℕ, Monotone pos ∧ (∀ s, pos s ≤ n - 1) ∧
          at3 A o j (n - 1) = ∑ s : Fin (k + 1), linform X[j] (words[i].els[s]) (pos s) ∧
          ∀ s : Fin (k + 1), at3 A (o + 1 + s) j (n - 1) = (pos s : R) := by
  obtain ⟨A, h1, h2, h3⟩ := argmax_at (expf := expf) hadm.nonempty X
  refine ⟨A, h1, h2, ?_⟩
  intro i hi j hj k hk o ho
  have hZ := hadm.data _ (List.getElem_mem hj)
  have hne : X[j] ≠ [] := by intro h; have := hZ.1; rw [h] at this; have := hadm.dims; simp at *; omega
  have hm := List.getElem_mem hi
  have hfit : ∀ el ∈ words[i].els, Fits X[j] el := fun el hel => by unfold Fits; rw [hZ.1]; exact hadm.fits _ hm el hel
  obtain ⟨g1, pos, g2, g3, g4, g5⟩ := arcticArgmax_spec hn hZ.2 hne hfit (hlet _ hm) (zeros words[i].els.length) hk
  have hrow : ∀ r < triIndex words[i].els.length, ∀ t, at3 A (argmaxOffset words i + r) j t = _ := h3 i hi j hj
  rw [ncols_eq hZ.2 hne] at hrow
  have htri : triIndex k + k + 1 < triIndex words[i].els.length := by
    have := triIndex_mono (show k + 1 ≤ words[i].els.length from hk)
    rw [triIndex_succ] at this
    omega
  have hel : ∀ s : Fin (k + 1), words[i].els.getD s [] = words[i].els[s] := fun s => by
    have : (s : ℕ) < words[i].els.length := by omega
    simp [List.getD_eq_getElem?_getD, this]
  simp only [hel] at g1 g4
  have ho' : o = argmaxOffset words i + triIndex k := ho
  subst ho'
  rw [hrow _ (by omega)]
  refine ⟨fun t ht => by rw [hrow _ (by omega)]; exact g1 t ht, pos, g2, g3, g4, fun s => ?_⟩
  rw [← g5 s, ← hrow _ (by omega)]
  congr 1
  omega

end Fruits

/-! ### Non-vacuity -/

namespace Fruits.ArgmaxExample
open Fruits

def X : Data ℚ := [[[1, 3, 2, 3], [0, -1, 4, 2]], [[2, 2, 2, 2], [5, 5, 1, 6]]]
/-- `[1][2]` and `[1][2][11]`. -/
def words : List (SWord ℚ) := [⟨[[1], [0, 1]], 2, "[1][2]".toList, none⟩, ⟨[[1], [0, 1], [2]], 2, "[1][2][11]".toList, none⟩]

theorem adm : Admissible X 2 4 words where
  data := by simp [X, IsData, Rect]
  dims := by decide
  nonempty := by simp [words]
  letters := by simp [words]
  fits := by simp [words]

example (expf : ℚ → ℚ) := C15_argmax expf adm (by norm_num) (by simp [words])

/-- The second word's full prefix is at rows 5+5 … 13. -/
example : argmaxOffset words 1 = 5 ∧ argmaxOffset words 2 = 14 := by decide

/-- The value `13` of the first series at the end is `3 + 4 + 2·3` at the time steps `1, 2, 3`; the value `7` of the
prefix of length two is `3 + 4` at `1, 2`. -/
example : (arcticArgmax (X.getD 0 []) [[1], [0, 1], [2]] (zeros 3) (zeros 4)).map (fun r => r.getD 3 0) =
    [3, 1, 7, 1, 2, 13, 1, 2, 3] := by decide +kernel

end Fruits.ArgmaxExample
