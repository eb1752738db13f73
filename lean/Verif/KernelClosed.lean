import Verif.KernelLemmas
import Mathlib.Algebra.Order.BigOperators.Ring.Finset

/-! # Closed forms of the kernels in terms of the specification -/

namespace Fruits
variable {R : Type*} [Field R] [LinearOrder R] [IsStrictOrderedRing R]

theorem ExpLike.sum {expf : R → R} (h : ExpLike expf) {ι : Type*} (s : Finset ι) (F : ι → R) :
    expf (∑ j ∈ s, F j) = ∏ j ∈ s, expf (F j) := by
  induction s using Finset.cons_induction with
  | empty => simp [h.zero]
  | cons a s ha ih => rw [Finset.sum_cons, Finset.prod_cons, h.add, ih]

/-- The accumulated factors of a tuple, times the closing factor `exp(-α_p g(x))`. -/
theorem prod_aW_close {expf : R → R} (h : ExpLike expf) (c : ℕ → ℕ → R) (al g : ℕ → R) (p : ℕ)
    (i : Fin (p + 1) → ℕ) (t : ℕ) (total : Bool) :
    (∏ j : Fin (p + 1), aW expf c al g j (i j))
        * expf (-g (if total then t else i (Fin.last p)) * al p)
      = (∏ j : Fin (p + 1), c j (i j)) * expf (penalty total al g i t) := by
  rw [prod_aW h, penalty_succ, h.add, h.sum, mul_assoc, mul_assoc]
  congr 2
  rw [← h.add]
  cases total
  · simp only [Bool.false_eq_true, if_false]
    congr 1; ring
  · simp only [if_true]
    congr 1; ring

/-- Kernel result of the Reals semiring: one row per saved prefix of length `q = p - ext + r + 1`. -/
theorem reals_closed {expf : R → R} (hexp : ExpLike expf) {Z : List (List R)} {n : ℕ}
    (hZ : Rect Z n) (hne : Z ≠ []) {word : List (List ℤ)} (hfit : ∀ el ∈ word, Fits Z el)
    (alpha : List R) {weights : List R} (hw : weights.length = n) {ext : ℕ}
    (he : ext ≤ word.length) (total : Bool) :
    (if total then totalReals expf Z word alpha weights ext
      else realsSingle expf Z word alpha weights ext)
    = tab ext (fun r => tab n (fun t =>
        ∑ i ∈ incTuples (word.length - ext + r + 1) (t + 1),
          (∏ j : Fin (word.length - ext + r + 1), monomial Z (word.getD j []) (i j))
          * expf (penalty total (alpha.getD · 0) (weights.getD · 0) i t))) := by
  have key : ∀ (q t : ℕ), ∑ i ∈ incTuples (q + 1) (t + 1),
          (∏ j : Fin (q + 1), monomial Z (word.getD j []) (i j))
          * expf (penalty total (alpha.getD · 0) (weights.getD · 0) i t)
      = ∑ i ∈ incTuples (q + 1) (t + 1),
        (∏ j : Fin (q + 1), aW expf (monos Z word) (alpha.getD · 0) (weights.getD · 0) j (i j))
        * expf (-weights.getD (if total then t else i (Fin.last q)) 0 * alpha.getD q 0) := by
    intro q t
    apply Finset.sum_congr rfl
    intro i _
    exact (prod_aW_close hexp (monos Z word) (alpha.getD · 0) (weights.getD · 0) q i t total).symm
  cases total with
  | true =>
    rw [if_pos rfl, totalReals_eq expf hZ hne hfit alpha hw he]
    apply tab_congr; intro r _
    apply tab_congr; intro t _
    rw [key, incSum, Finset.sum_mul]
    rfl
  | false =>
    rw [if_neg (by simp), realsSingle_eq expf hZ hne hfit alpha hw he]
    apply tab_congr; intro r _
    apply tab_congr; intro t _
    rw [key, sum_incTuples_succ]
    apply Finset.sum_congr rfl
    intro s _
    rw [incSum, Finset.sum_mul]
    apply Finset.sum_congr rfl
    intro i _
    rw [Fin.prod_univ_castSucc]
    simp only [Fin.snoc_castSucc, Fin.snoc_last, Fin.val_castSucc, Fin.val_last,
      Bool.false_eq_true, if_false]
    rw [mul_assoc]
    congr 1
    simp only [aW]
    rw [mul_assoc, ← hexp.add]
    rw [show weights.getD s 0 * alpha.getD (word.length - ext + r) 0
      + -weights.getD s 0 * alpha.getD (word.length - ext + r) 0 = 0 by ring, hexp.zero, mul_one]

/-- Replace the entry of letter `q`. -/
private def setLast (a : ℕ → ℕ → R) (q : ℕ) (b : ℕ → R) (j s : ℕ) : R := if j = q then b s else a j s

omit [Field R] [IsStrictOrderedRing R] in
private theorem chainMax_setLast (op : R → R → R) (z : R) (a : ℕ → ℕ → R) (q : ℕ) (b : ℕ → R) (t : ℕ) :
    runMax (fun s => op (chainMax op z a q s) (b s)) t
      = chainMax op z (setLast a q b) (q + 1) t := by
  rw [chainMax]
  apply runMax_congr
  intro s _
  rw [show setLast a q b q s = b s by simp [setLast]]
  congr 1
  apply chainMax_congr
  intro j hj u _
  simp [setLast, hj.ne]

/-- The candidate values of the max-plus iterated sum. -/
def arcticCands (total : Bool) (al g : ℕ → R) (c : ℕ → ℕ → R) (p t : ℕ) : Set R :=
  {v | ∃ i : Fin p → ℕ, WeakTuple t i ∧ v = (∑ j : Fin p, c j (i j)) + penalty total al g i t}

/-- The candidate values of the max-times iterated sum. -/
def bayesianCands (expf : R → R) (total : Bool) (al g : ℕ → R) (c : ℕ → ℕ → R) (p t : ℕ) : Set R :=
  {v | ∃ i : Fin p → ℕ, WeakTuple t i ∧
    v = (∏ j : Fin p, c j (i j)) * expf (penalty total al g i t)}

theorem arctic_closed {Z : List (List R)} {n : ℕ}
    (hZ : Rect Z n) (hne : Z ≠ []) {word : List (List ℤ)} (hfit : ∀ el ∈ word, Fits Z el)
    (alpha : List R) {weights : List R} (hw : weights.length = n) {ext : ℕ}
    (he : ext ≤ word.length) (total : Bool) :
    ∃ F : ℕ → ℕ → R,
      (if total then totalArctic Z word alpha weights ext
        else arcticSingle Z word alpha weights ext) = tab ext (fun r => tab n (F r)) ∧
      ∀ r < ext, ∀ t < n, IsGreatest
        (arcticCands total (alpha.getD · 0) (weights.getD · 0)
          (fun j s => linform Z (word.getD j []) s) (word.length - ext + r + 1) t) (F r t) := by
  cases total with
  | true =>
    refine ⟨_, (if_pos rfl).trans (totalArctic_eq hZ hne hfit alpha hw he), ?_⟩
    intro r hr t ht
    obtain ⟨⟨i, hi, hv⟩, hub⟩ := chainMax_isGreatest (· + ·) (0 : R)
      (aP (lins Z word) (alpha.getD · 0) (weights.getD · 0)) (word.length - ext + r + 1) n
      (fun _ _ _ _ x y h => by simpa using h) t ht
    have key : ∀ i : Fin (word.length - ext + r + 1) → ℕ,
        chainVal (· + ·) 0 (aP (lins Z word) (alpha.getD · 0) (weights.getD · 0))
          (word.length - ext + r + 1) i - weights.getD t 0 * alpha.getD (word.length - ext + r) 0
        = (∑ j : Fin (word.length - ext + r + 1), linform Z (word.getD j []) (i j))
          + penalty true (alpha.getD · 0) (weights.getD · 0) i t := by
      intro i
      rw [chainVal_add, penalty_succ]
      have := sum_gap (lins Z word) (alpha.getD · 0) (weights.getD · 0) _ i
      simp only [aP]
      rw [this]
      simp only [lins, if_true]
      ring
    constructor
    · refine ⟨i, hi, ?_⟩
      rw [← key, ← hv]
    · rintro v ⟨i, hi, rfl⟩
      rw [← key]
      exact sub_le_sub_right (hub ⟨i, hi, rfl⟩) _
  | false =>
    refine ⟨_, (if_neg (by simp)).trans (arcticSingle_eq hZ hne hfit alpha hw he), ?_⟩
    intro r hr t ht
    generalize hq : word.length - ext + r = q
    set b : ℕ → R := fun s => lins Z word q s -
          (if q = 0 then 0 else weights.getD s 0 * alpha.getD (q - 1) 0) with hb
    set a := aP (lins Z word) (alpha.getD · 0) (weights.getD · 0) with ha
    rw [chainMax_setLast (· + ·) (0 : R) a q b t]
    obtain ⟨⟨i, hi, hv⟩, hub⟩ := chainMax_isGreatest (· + ·) (0 : R)
      (setLast a q b) (q + 1) n (fun _ _ _ _ x y h => by simpa using h) t ht
    have key : ∀ i : Fin (q + 1) → ℕ,
        chainVal (· + ·) 0 (setLast a q b) (q + 1) i
        = (∑ j : Fin (q + 1), linform Z (word.getD j []) (i j))
          + penalty false (alpha.getD · 0) (weights.getD · 0) i t := by
      intro i
      rw [chainVal_add, penalty_succ]
      have := sum_gap (lins Z word) (alpha.getD · 0) (weights.getD · 0) _ i
      have h2 : ∑ j : Fin (q + 1), setLast a q b j (i j)
          = (∑ j : Fin (q + 1), a j (i j)) - weights.getD (i (Fin.last q)) 0 * alpha.getD q 0 := by
        rw [Fin.sum_univ_castSucc, Fin.sum_univ_castSucc (fun j : Fin (q + 1) => a j (i j))]
        have : ∀ j : Fin q, setLast a q b (j.castSucc : Fin (q + 1)) (i j.castSucc)
            = a (j.castSucc : Fin (q + 1)) (i j.castSucc) := by
          intro j; simp [setLast, j.2.ne]
        simp only [this]
        have h3 : setLast a q b (Fin.last q) (i (Fin.last q))
            = a (Fin.last q) (i (Fin.last q)) - weights.getD (i (Fin.last q)) 0 * alpha.getD q 0 := by
          simp only [setLast, Fin.val_last, if_true, hb, ha, aP]
          ring
        rw [h3]; ring
      rw [h2]
      simp only [ha, aP]
      rw [this]
      simp only [lins, Bool.false_eq_true, if_false]
      ring
    constructor
    · refine ⟨i, hi, ?_⟩
      rw [← key, ← hv]
    · rintro v ⟨i, hi, rfl⟩
      rw [← key]
      exact hub ⟨i, hi, rfl⟩

/-- Non-negativity of the letter values of a word. -/
def NonnegLetters (Z : List (List R)) (word : List (List ℤ)) (n : ℕ) : Prop :=
  ∀ j < word.length, ∀ s < n, 0 ≤ monomial Z (word.getD j []) s

theorem bayesian_closed {expf : R → R} (hexp : ExpLike expf) {Z : List (List R)} {n : ℕ}
    (hZ : Rect Z n) (hne : Z ≠ []) {word : List (List ℤ)} (hfit : ∀ el ∈ word, Fits Z el)
    (hpos : NonnegLetters Z word n)
    (alpha : List R) {weights : List R} (hw : weights.length = n) {ext : ℕ}
    (he : ext ≤ word.length) (total : Bool) :
    ∃ F : ℕ → ℕ → R,
      (if total then totalBayesian expf Z word alpha weights ext
        else bayesianSingle expf Z word alpha weights ext) = tab ext (fun r => tab n (F r)) ∧
      ∀ r < ext, ∀ t < n, IsGreatest
        (bayesianCands expf total (alpha.getD · 0) (weights.getD · 0)
          (fun j s => monomial Z (word.getD j []) s) (word.length - ext + r + 1) t) (F r t) := by
  have hmono : ∀ j < word.length, ∀ s < n,
      0 ≤ aW expf (monos Z word) (alpha.getD · 0) (weights.getD · 0) j s := by
    intro j hj s hs
    unfold aW
    refine mul_nonneg (mul_nonneg (hpos j hj s hs) ?_) (hexp.pos _).le
    split
    · exact zero_le_one
    · exact (hexp.pos _).le
  cases total with
  | true =>
    refine ⟨_, (if_pos rfl).trans (totalBayesian_eq expf hZ hne hfit alpha hw he), ?_⟩
    intro r hr t ht
    obtain ⟨⟨i, hi, hv⟩, hub⟩ := chainMax_isGreatest (· * ·) (1 : R)
      (aW expf (monos Z word) (alpha.getD · 0) (weights.getD · 0)) (word.length - ext + r + 1) n
      (fun j hj s hs x y h => mul_le_mul_of_nonneg_right h (hmono j (by omega) s hs)) t ht
    have key : ∀ i : Fin (word.length - ext + r + 1) → ℕ,
        chainVal (· * ·) 1 (aW expf (monos Z word) (alpha.getD · 0) (weights.getD · 0))
          (word.length - ext + r + 1) i
          * expf (-weights.getD t 0 * alpha.getD (word.length - ext + r) 0)
        = (∏ j : Fin (word.length - ext + r + 1), monomial Z (word.getD j []) (i j))
          * expf (penalty true (alpha.getD · 0) (weights.getD · 0) i t) := by
      intro i
      rw [chainVal_mul, one_mul]
      exact prod_aW_close hexp (monos Z word) (alpha.getD · 0) (weights.getD · 0) _ i t true
    constructor
    · refine ⟨i, hi, ?_⟩
      rw [← key, ← hv]
    · rintro v ⟨i, hi, rfl⟩
      rw [← key]
      exact mul_le_mul_of_nonneg_right (hub ⟨i, hi, rfl⟩) (hexp.pos _).le
  | false =>
    refine ⟨_, (if_neg (by simp)).trans (bayesianSingle_eq expf hZ hne hfit alpha hw he), ?_⟩
    intro r hr t ht
    have hqp : word.length - ext + r < word.length := by omega
    generalize hq : word.length - ext + r = q at hqp
    set b : ℕ → R := fun s => monos Z word q s *
          (if q = 0 then 1 else expf (-weights.getD s 0 * alpha.getD (q - 1) 0)) with hb
    set a := aW expf (monos Z word) (alpha.getD · 0) (weights.getD · 0) with ha
    rw [chainMax_setLast (· * ·) (1 : R) a q b t]
    have hnn : ∀ j < q + 1, ∀ s < n, 0 ≤ setLast a q b j s := by
      intro j hj s hs
      unfold setLast
      split
      · refine mul_nonneg (hpos q hqp s hs) ?_
        split
        · exact zero_le_one
        · exact (hexp.pos _).le
      · exact hmono j (by omega) s hs
    obtain ⟨⟨i, hi, hv⟩, hub⟩ := chainMax_isGreatest (· * ·) (1 : R)
      (setLast a q b) (q + 1) n
      (fun j hj s hs x y h => mul_le_mul_of_nonneg_right h (hnn j hj s hs)) t ht
    have key : ∀ i : Fin (q + 1) → ℕ,
        chainVal (· * ·) 1 (setLast a q b) (q + 1) i
        = (∏ j : Fin (q + 1), monomial Z (word.getD j []) (i j))
          * expf (penalty false (alpha.getD · 0) (weights.getD · 0) i t) := by
      intro i
      rw [chainVal_mul, one_mul]
      rw [show (∏ j : Fin (q + 1), monomial Z (word.getD j []) (i j))
          * expf (penalty false (alpha.getD · 0) (weights.getD · 0) i t) = _ from
        (prod_aW_close hexp (monos Z word) (alpha.getD · 0) (weights.getD · 0) q i t false).symm]
      rw [Fin.prod_univ_castSucc, Fin.prod_univ_castSucc (fun j : Fin (q + 1) =>
        aW expf (monos Z word) (alpha.getD · 0) (weights.getD · 0) j (i j))]
      have : ∀ j : Fin q, setLast a q b (j.castSucc : Fin (q + 1)) (i j.castSucc)
            = a (j.castSucc : Fin (q + 1)) (i j.castSucc) := by
          intro j; simp [setLast, j.2.ne]
      simp only [this]
      rw [mul_assoc]
      congr 1
      simp only [setLast, Fin.val_last, if_true, hb, aW, Bool.false_eq_true, if_false]
      rw [mul_assoc, ← hexp.add]
      rw [show weights.getD (i (Fin.last q)) 0 * alpha.getD q 0
        + -weights.getD (i (Fin.last q)) 0 * alpha.getD q 0 = 0 by ring, hexp.zero, mul_one]
    constructor
    · refine ⟨i, hi, ?_⟩
      rw [← key, ← hv]
    · rintro v ⟨i, hi, rfl⟩
      rw [← key]
      exact hub ⟨i, hi, rfl⟩

end Fruits
