import Verif.ISSLemmas

/-! # Closed forms of the path for words with arbitrary letters -/

set_option linter.unusedSectionVars false

namespace Fruits
variable {R : Type} [Field R] [LinearOrder R] [IsStrictOrderedRing R]

/-- Product of the values of the letters of one extended letter at time `t`. -/
def letterProd (Z : List (List R)) (el : List (BoundLetter R)) (t : ℕ) : R :=
  (el.map fun l => (l Z).getD t 0).prod

/-- Sum of the values of the letters of one extended letter at time `t`. -/
def letterSum (Z : List (List R)) (el : List (BoundLetter R)) (t : ℕ) : R :=
  (el.map fun l => (l Z).getD t 0).sum

theorem lettersOp_mul {Z : List (List R)} {n : ℕ} (hZ : Rect Z n) (hne : Z ≠ [])
    (el : List (BoundLetter R)) (hl : ∀ l ∈ el, (l Z).length = n) :
    lettersOp 1 (· * ·) Z el = tab n (letterProd Z el) := by
  unfold lettersOp letterProd
  rw [ncols_eq hZ hne, replicate_eq_tab]
  suffices h : ∀ f : ℕ → R, el.foldl (fun C letter => List.zipWith (· * ·) C (letter Z)) (tab n f)
      = tab n (fun t => f t * (el.map fun l => (l Z).getD t 0).prod) by
    rw [h]; apply tab_congr; intro t _; rw [one_mul]
  induction el with
  | nil => intro f; simp
  | cons l el ih =>
    intro f
    have hl1 : (l Z) = tab n (fun t => (l Z).getD t 0) := by
      have := tab_of_list (l Z) 0
      rwa [hl l (by simp)] at this
    rw [List.foldl_cons]
    have e : List.zipWith (· * ·) (tab n f) (l Z) = tab n (fun t => f t * (l Z).getD t 0) := by
      conv_lhs => rw [hl1]
      rw [zipWith_tab]
    rw [e, ih fun l hl' => hl l (by simp [hl'])]
    apply tab_congr; intro t _
    simp [mul_assoc]

theorem lettersOp_add {Z : List (List R)} {n : ℕ} (hZ : Rect Z n) (hne : Z ≠ [])
    (el : List (BoundLetter R)) (hl : ∀ l ∈ el, (l Z).length = n) :
    lettersOp 0 (· + ·) Z el = tab n (letterSum Z el) := by
  unfold lettersOp letterSum
  rw [ncols_eq hZ hne, replicate_eq_tab]
  suffices h : ∀ f : ℕ → R, el.foldl (fun C letter => List.zipWith (· + ·) C (letter Z)) (tab n f)
      = tab n (fun t => f t + (el.map fun l => (l Z).getD t 0).sum) by
    rw [h]; apply tab_congr; intro t _; rw [zero_add]
  induction el with
  | nil => intro f; simp
  | cons l el ih =>
    intro f
    have hl1 : (l Z) = tab n (fun t => (l Z).getD t 0) := by
      have := tab_of_list (l Z) 0
      rwa [hl l (by simp)] at this
    rw [List.foldl_cons]
    have e : List.zipWith (· + ·) (tab n f) (l Z) = tab n (fun t => f t + (l Z).getD t 0) := by
      conv_lhs => rw [hl1]
      rw [zipWith_tab]
    rw [e, ih fun l hl' => hl l (by simp [hl'])]
    apply tab_congr; intro t _
    simp [add_assoc]

theorem setFrom_tab (n k : ℕ) (f g : ℕ → R) :
    setFrom (tab n f) k (tab (n - k) g) = tab n (fun t => if t < k then f t else g (t - k)) := by
  unfold setFrom
  rw [take_tab, append_tab]
  rcases Nat.lt_or_ge k n with h | h
  · rw [min_eq_left h.le, show k + (n - k) = n by omega]
  · rw [min_eq_right h, show n + (n - k) = n by omega]
    apply tab_congr; intro t ht
    rw [if_pos ht, if_pos (by omega)]

theorem incSum_eq_zero (c : ℕ → ℕ → R) {p n : ℕ} (h : n < p) : incSum c p n = 0 := by
  induction p generalizing n with
  | zero => omega
  | succ p ih =>
    rw [incSum_succ]
    apply Finset.sum_eq_zero
    intro s hs
    rw [ih (by simp at hs; omega), zero_mul]

/-- Values of the letters of a general word. -/
def prods (Z : List (List R)) (word : List (List (BoundLetter R))) (j t : ℕ) : R :=
  letterProd Z (word.getD j []) t

/-- Values of the letters of a general word. -/
def sums (Z : List (List R)) (word : List (List (BoundLetter R))) (j t : ℕ) : R :=
  letterSum Z (word.getD j []) t

/-- All letters of the word return arrays of the length of the series. -/
def LettersFit {R : Type} (Z : List (List R)) (n : ℕ) (word : List (List (BoundLetter R))) : Prop :=
  ∀ el ∈ word, ∀ l ∈ el, (l Z).length = n

theorem genericReals_eq {Z : List (List R)} {n : ℕ} (hZ : Rect Z n) (hne : Z ≠ [])
    {word : List (List (BoundLetter R))} (hfit : LettersFit Z n word) {ext : ℕ}
    (he : ext ≤ word.length) :
    genericSingle 1 (· * ·) cumsum Z word ext = tab ext (fun r => tab n (fun t =>
      incSum (prods Z word) (word.length - ext + r + 1) (t + 1))) := by
  unfold genericSingle
  rw [ncols_eq hZ hne]
  refine kernel_loop word ext he
    (fun k => tab n (fun t => incSum (prods Z word) k (t + 1)))
    (fun k => tab n (fun t => incSum (prods Z word) (k + 1) (t + 1)))
    (zeros n) _ _ (by intro _; simp [replicate_eq_tab]) ?_
  intro k hk res hres
  have hC : lettersOp 1 (· * ·) Z word[k] = tab n (prods Z word k) := by
    rw [lettersOp_mul hZ hne _ (hfit _ (List.getElem_mem hk))]
    apply tab_congr; intro t _
    simp [prods, List.getD_eq_getElem?_getD, hk]
  have key : (let tmp := tab n (fun t => incSum (prods Z word) k (t + 1))
      let tmp := if k > 0 then roll1z tmp else tmp
      let tmp := setFrom tmp k (List.zipWith (· * ·) (tmp.drop k)
        ((lettersOp 1 (· * ·) Z word[k]).drop k))
      setFrom tmp k (cumsum (tmp.drop k)))
      = tab n (fun t => incSum (prods Z word) (k + 1) (t + 1)) := by
    simp only
    rw [hC]
    have hroll : (if k > 0 then roll1z (tab n (fun t => incSum (prods Z word) k (t + 1)))
        else tab n (fun t => incSum (prods Z word) k (t + 1)))
        = tab n (fun t => incSum (prods Z word) k t) := by
      split
      · next h =>
        rw [roll1z_tab]
        apply tab_congr; intro t _
        split
        · next h0 => rw [h0, incSum_eq_zero _ h]
        · rw [show t - 1 + 1 = t by omega]
      · next h =>
        have : k = 0 := by omega
        subst this; simp
    rw [hroll, drop_tab, drop_tab, zipWith_tab, setFrom_tab, drop_tab, cumsum_tab, setFrom_tab]
    apply tab_congr; intro t ht
    split
    · next h =>
      rw [incSum_eq_zero _ h, incSum_eq_zero _ (by omega)]
    · next h =>
      rw [incSum_succ]
      have hsplit : Finset.range (t + 1) = Finset.range (k + (t - k + 1)) := by congr 1; omega
      rw [hsplit]
      conv_rhs => rw [Finset.sum_range_add]
      rw [Finset.sum_eq_zero (s := Finset.range k), zero_add]
      · apply Finset.sum_congr rfl
        intro s _
        rw [if_neg (by omega), show k + s - k = s by omega]
      · intro s hs
        rw [incSum_eq_zero _ (by simpa using hs), zero_mul]
  refine ⟨_, _, rfl, fun _ => key, fun _ => key⟩

theorem genericArctic_eq {Z : List (List R)} {n : ℕ} (hZ : Rect Z n) (hne : Z ≠ [])
    {word : List (List (BoundLetter R))} (hfit : LettersFit Z n word) {ext : ℕ}
    (he : ext ≤ word.length) :
    arcticGenericSingle Z word ext = tab ext (fun r => tab n (fun t =>
      chainMax (· + ·) 0 (sums Z word) (word.length - ext + r + 1) t)) := by
  unfold arcticGenericSingle
  rw [ncols_eq hZ hne]
  refine kernel_loop word ext he
    (fun k => tab n (fun t => chainMax (· + ·) 0 (sums Z word) k t))
    (fun k => tab n (fun t => chainMax (· + ·) 0 (sums Z word) (k + 1) t))
    (zeros n) _ _ (by intro _; simp [chainMax]) ?_
  intro k hk res hres
  have hC : lettersOp 0 (· + ·) Z word[k] = tab n (sums Z word k) := by
    rw [lettersOp_add hZ hne _ (hfit _ (List.getElem_mem hk))]
    apply tab_congr; intro t _
    simp [sums, List.getD_eq_getElem?_getD, hk]
  have key : maxAcc (vadd (tab n (fun t => chainMax (· + ·) 0 (sums Z word) k t))
      (lettersOp 0 (· + ·) Z word[k]))
      = tab n (fun t => chainMax (· + ·) 0 (sums Z word) (k + 1) t) := by
    rw [hC, vadd_tab, maxAcc_tab]
    rfl
  exact ⟨_, _, rfl, fun _ => key, fun _ => key⟩

/-- What the generic path computes with the Bayesian semiring: the maximum over strictly increasing tuples,
and `0` while there is none. -/
def strictMax (c : ℕ → ℕ → R) : ℕ → ℕ → R
  | 0, t => runMax (c 0) t
  | k + 1, t => if t < k + 1 then 0
      else runMax (fun u => strictMax c k (k + u) * c (k + 1) (k + 1 + u)) (t - (k + 1))

theorem genericBayesian_eq {Z : List (List R)} {n : ℕ} (hZ : Rect Z n) (hne : Z ≠ [])
    {word : List (List (BoundLetter R))} (hfit : LettersFit Z n word) {ext : ℕ}
    (he : ext ≤ word.length) :
    genericSingle 1 (· * ·) maxAcc Z word ext = tab ext (fun r => tab n (fun t =>
      strictMax (prods Z word) (word.length - ext + r) t)) := by
  unfold genericSingle
  rw [ncols_eq hZ hne]
  refine kernel_loop word ext he
    (fun k => tab n (fun t => if k = 0 then 1 else strictMax (prods Z word) (k - 1) t))
    (fun k => tab n (fun t => strictMax (prods Z word) k t))
    (zeros n) _ _ (by intro _; simp [replicate_eq_tab]) ?_
  intro k hk res hres
  have hC : lettersOp 1 (· * ·) Z word[k] = tab n (prods Z word k) := by
    rw [lettersOp_mul hZ hne _ (hfit _ (List.getElem_mem hk))]
    apply tab_congr; intro t _
    simp [prods, List.getD_eq_getElem?_getD, hk]
  have key : (let tmp := tab n (fun t => if k = 0 then 1 else strictMax (prods Z word) (k - 1) t)
      let tmp := if k > 0 then roll1z tmp else tmp
      let tmp := setFrom tmp k (List.zipWith (· * ·) (tmp.drop k)
        ((lettersOp 1 (· * ·) Z word[k]).drop k))
      setFrom tmp k (maxAcc (tmp.drop k)))
      = tab n (fun t => strictMax (prods Z word) k t) := by
    simp only
    rw [hC]
    rcases k with _ | k
    · simp only [gt_iff_lt, lt_self_iff_false, if_false]
      rw [drop_tab, drop_tab, zipWith_tab, setFrom_tab, drop_tab, maxAcc_tab, setFrom_tab]
      apply tab_congr; intro t _
      simp [strictMax]
    · simp only [gt_iff_lt, Nat.succ_pos, if_true, Nat.add_one_ne_zero, if_false,
        Nat.add_sub_cancel]
      rw [roll1z_tab, drop_tab, drop_tab, zipWith_tab, setFrom_tab, drop_tab, maxAcc_tab, setFrom_tab]
      apply tab_congr; intro t ht
      rw [strictMax]
      split
      · next h =>
        split
        · rfl
        · rcases k with _ | k
          · omega
          · rw [strictMax, if_pos (by omega)]
      · next h =>
        apply runMax_congr
        intro u _
        rw [if_neg (by omega), if_neg (by omega), show k + 1 + u - (k + 1) = u by omega,
          show k + 1 + u - 1 = k + u by omega]
  refine ⟨_, _, rfl, fun _ => key, ?_⟩
  intro _
  rw [show (fun t => if k + 1 = 0 then (1 : R) else strictMax (prods Z word) (k + 1 - 1) t)
    = fun t => strictMax (prods Z word) k t from rfl]
  exact key

theorem strictMax_isGreatest (c : ℕ → ℕ → R) (n : ℕ) (k : ℕ)
    (hc : ∀ j ≤ k, ∀ s < n, 0 ≤ c j s) (t : ℕ) (hkt : k ≤ t) (ht : t < n) :
    IsGreatest {v | ∃ i : Fin (k + 1) → ℕ, StrictMono i ∧ (∀ j, i j ≤ t) ∧
      v = ∏ j : Fin (k + 1), c j (i j)} (strictMax c k t) := by
  induction k generalizing t with
  | zero =>
    obtain ⟨⟨s, hs, hv⟩, hub⟩ := runMax_isGreatest (c 0) t
    refine ⟨⟨fun _ => s, fun a b hab => absurd hab (by have := a.2; have := b.2; omega), fun _ => hs, by simpa [strictMax] using hv⟩, ?_⟩
    rintro v ⟨i, _, hi, rfl⟩
    exact hub ⟨i 0, hi 0, by simp⟩
  | succ k ih =>
    rw [strictMax, if_neg (by omega)]
    obtain ⟨⟨u, hu, hv⟩, hub⟩ := runMax_isGreatest
      (fun u => strictMax c k (k + u) * c (k + 1) (k + 1 + u)) (t - (k + 1))
    have ih' := ih (fun j hj => hc j (by omega))
    constructor
    · obtain ⟨⟨i, hi, hit, hiv⟩, _⟩ := ih' (k + u) (by omega) (by omega)
      refine ⟨Fin.snoc (α := fun _ => ℕ) i (k + 1 + u), ?_, ?_, ?_⟩
      · intro a b hab
        induction b using Fin.lastCases with
        | last =>
          induction a using Fin.lastCases with
          | last => exact absurd hab (lt_irrefl _)
          | cast a => have := hit a; simp; omega
        | cast b =>
          induction a using Fin.lastCases with
          | last => exact absurd hab (not_lt.2 (Fin.le_last _))
          | cast a => simpa using hi (Fin.castSucc_lt_castSucc_iff.1 hab)
      · intro j
        induction j using Fin.lastCases with
        | last => simp; omega
        | cast j => have := hit j; simp; omega
      · rw [hv, Fin.prod_univ_castSucc, hiv]
        simp
    · rintro v ⟨i, hi, hit, rfl⟩
      have hlast : k + 1 ≤ i (Fin.last (k + 1)) := by
        have h2 : ∀ j : Fin (k + 1 + 1), (j : ℕ) ≤ i j := by
          intro j
          induction j using Fin.induction with
          | zero => simp
          | succ j ih => have := hi (Fin.castSucc_lt_succ (i := j)); simp at ih ⊢; omega
        simpa using h2 (Fin.last (k + 1))
      have hlt := hit (Fin.last (k + 1))
      refine le_trans ?_ (hub ⟨i (Fin.last (k + 1)) - (k + 1), by omega, rfl⟩)
      rw [Fin.prod_univ_castSucc]
      have e1 : k + 1 + (i (Fin.last (k + 1)) - (k + 1)) = i (Fin.last (k + 1)) := by omega
      have hprev := (ih' (k + (i (Fin.last (k + 1)) - (k + 1))) (by omega) (by omega)).2
        ⟨Fin.init i, fun a b hab => hi (Fin.castSucc_lt_castSucc_iff.2 hab), fun j => by
          have := hi (Fin.castSucc_lt_last j)
          simp only [Fin.init]
          omega, rfl⟩
      simp only [e1]
      refine mul_le_mul_of_nonneg_right ?_ (hc _ le_rfl _ (by omega))
      simpa [Fin.init] using hprev

end Fruits
