import Verif.Semiring
import Verif.Spec
import Mathlib.Algebra.BigOperators.Ring.Finset

/-! # Lemmas about the kernels of `Verif.Semiring` -/

namespace Fruits
variable {R : Type*}

theorem ncols_eq {Z : List (List R)} {n : ℕ} (h : Rect Z n) (hne : Z ≠ []) : ncols Z = n := by
  cases Z with
  | nil => exact absurd rfl hne
  | cons x xs => exact h x (by simp)

theorem row_tab [Zero R] {Z : List (List R)} {n d : ℕ} (h : Rect Z n) (hd : d < Z.length) :
    row Z d = tab n (fun t => entry Z d t) := row_eq_tab h hd

private theorem mul_iter [Field R] (n m : ℕ) (f x : ℕ → R) :
    (fun tmp => vmul tmp (tab n x))^[m] (tab n f) = tab n (fun t => f t * x t ^ m) := by
  induction m with
  | zero => simp
  | succ m ih =>
    rw [Function.iterate_succ_apply', ih, vmul_tab]
    apply tab_congr; intro t _; ring

private theorem div_iter [Field R] (n m : ℕ) (f x : ℕ → R) :
    (fun tmp => vdiv tmp (tab n x))^[m] (tab n f) = tab n (fun t => f t * (x t)⁻¹ ^ m) := by
  induction m with
  | zero => simp
  | succ m ih =>
    rw [Function.iterate_succ_apply', ih, vdiv_tab]
    apply tab_congr; intro t _; rw [div_eq_mul_inv]; ring

theorem letterMul_tab [Field R] {Z : List (List R)} {n d : ℕ} (h : Rect Z n) (hd : d < Z.length)
    (occ : ℤ) (f : ℕ → R) :
    letterMul Z d occ (tab n f) = tab n (fun t => f t * entry Z d t ^ occ) := by
  unfold letterMul
  rw [row_tab h hd]
  split
  · next h1 =>
    rw [mul_iter]
    apply tab_congr; intro t _
    obtain ⟨m, rfl⟩ := Int.eq_ofNat_of_zero_le h1.le
    simp
  · split
    · next h1 h2 =>
      rw [div_iter]
      apply tab_congr; intro t _
      obtain ⟨m, hm⟩ := Int.eq_ofNat_of_zero_le (by omega : 0 ≤ -occ)
      have : occ = -(m : ℤ) := by omega
      subst this
      simp
    · next h1 h2 =>
      have : occ = 0 := by omega
      subst this; simp

/-- The extended letter fits the series: all its dimensions exist. -/
def Fits (Z : List (List R)) (el : List ℤ) : Prop := el.length ≤ Z.length

theorem lettersMul_tab [Field R] {Z : List (List R)} {n : ℕ} (h : Rect Z n)
    {el : List ℤ} (hel : Fits Z el) (f : ℕ → R) :
    lettersMul Z el (tab n f) = tab n (fun t => f t * monomial Z el t) := by
  have := enumFold_inv (fun letter occ tmp => letterMul Z letter occ tmp)
    (fun k tmp => tmp = tab n (fun t => f t * ∏ d ∈ Finset.range k, entry Z d t ^ (el.getD d 0)))
    0 el (tab n f) (by simp) (by
      intro j hj s hs
      rw [hs, letterMul_tab h (by unfold Fits at hel; omega)]
      apply tab_congr; intro t _
      rw [Finset.prod_range_succ, zero_add, mul_assoc]
      simp [List.getD_eq_getElem?_getD, hj])
  unfold lettersMul
  rw [this]
  simp [monomial]

theorem lettersAdd_tab [Field R] {Z : List (List R)} {n : ℕ} (h : Rect Z n)
    {el : List ℤ} (hel : Fits Z el) (f : ℕ → R) :
    lettersAdd Z el (tab n f) = tab n (fun t => f t + linform Z el t) := by
  have := enumFold_inv
    (fun dim (e : ℤ) tmp => vadd tmp ((row Z dim).map (fun x => (e : R) * x)))
    (fun k tmp => tmp = tab n (fun t => f t +
      ∑ d ∈ Finset.range k, (el.getD d 0 : R) * entry Z d t))
    0 el (tab n f) (by simp) (by
      intro j hj s hs
      rw [hs, row_tab h (by unfold Fits at hel; omega), map_tab, vadd_tab]
      apply tab_congr; intro t _
      rw [Finset.sum_range_succ, zero_add, add_assoc]
      simp [List.getD_eq_getElem?_getD, hj])
  unfold lettersAdd
  rw [this]
  simp [linform]

/-! ### saving rows -/

/-- The `result` array after `k` loop iterations: rows of the prefixes `< k` are written. -/
def savedRows (p ext k : ℕ) (A : ℕ → List R) (B : List R) : List (List R) :=
  tab ext (fun r => if p - ext + r < k then A (p - ext + r) else B)

theorem savedRows_zero (p ext : ℕ) (A : ℕ → List R) (B : List R) :
    List.replicate ext B = savedRows p ext 0 A B := by
  rw [replicate_eq_tab]; apply tab_congr; intro i _; simp

theorem savedRows_step {p ext k : ℕ} (hk : k < p) (he : ext ≤ p) (A : ℕ → List R) (B v : List R)
    (hv : p - k ≤ ext → v = A k) :
    (if p - k ≤ ext then (savedRows p ext k A B).set (ext - (p - k)) v
      else savedRows p ext k A B) = savedRows p ext (k + 1) A B := by
  unfold savedRows
  split
  · next h =>
    rw [set_tab, hv h]
    apply tab_congr; intro i hi
    by_cases h1 : i = ext - (p - k)
    · subst h1
      have : p - ext + (ext - (p - k)) = k := by omega
      simp [this]
    · rw [if_neg h1]
      have h2 : p - ext + i ≠ k := by omega
      have h3 : p - ext + i < k ↔ p - ext + i < k + 1 := by omega
      simp only [h3]
  · next h =>
    apply tab_congr; intro i hi
    have h3 : p - ext + i < k ↔ p - ext + i < k + 1 := by omega
    simp only [h3]

theorem savedRows_getD {p ext k : ℕ} (hk : k < p) (he : ext ≤ p) (A : ℕ → List R) (B : List R)
    (h : p - k ≤ ext) : (savedRows p ext k A B).getD (ext - (p - k)) [] = B := by
  unfold savedRows
  rw [tab_getD _ _ _ _ (by omega), if_neg (by omega)]

theorem savedRows_end {p ext : ℕ} (he : ext ≤ p) (A : ℕ → List R) (B : List R) :
    savedRows p ext p A B = tab ext (fun r => A (p - ext + r)) := by
  apply tab_congr; intro i hi
  rw [if_pos (by omega)]

/-- Loop rule for all kernels: `T k` describes `tmp` before iteration `k`, `A k` the row of the prefix with
`k + 1` extended letters. -/
theorem kernel_loop {α : Type*} (word : List α) (ext : ℕ) (he : ext ≤ word.length)
    (T : ℕ → List R) (A : ℕ → List R) (B : List R)
    (f : ℕ → α → List R × List (List R) → List R × List (List R)) (tmp0 : List R)
    (h0 : word ≠ [] → tmp0 = T 0)
    (hstep : ∀ k (hk : k < word.length) res,
      res = savedRows word.length ext k A B →
      ∃ tmp' v, f k word[k] (T k, res) =
        (tmp', if word.length - k ≤ ext then res.set (ext - (word.length - k)) v else res) ∧
        (word.length - k ≤ ext → v = A k) ∧ (k + 1 < word.length → tmp' = T (k + 1))) :
    (enumFold f 0 word (tmp0, List.replicate ext B)).2
      = tab ext (fun r => A (word.length - ext + r)) := by
  have := enumFold_inv f (fun k s => (k < word.length → s.1 = T k) ∧
      s.2 = savedRows word.length ext k A B) 0 word (tmp0, List.replicate ext B)
    ⟨fun h => h0 (by intro h'; simp [h'] at h), savedRows_zero _ _ _ _⟩ (by
      rintro j hj ⟨tmp, res⟩ ⟨h1, h2⟩
      simp only [zero_add] at *
      rw [h1 hj]
      obtain ⟨tmp', v, e, hv, ht⟩ := hstep j hj res h2
      rw [e, h2]
      refine ⟨ht, ?_⟩
      exact savedRows_step hj he A B v hv)
  rw [zero_add] at this
  rw [this.2, savedRows_end he]

/-! ### weighting algebra -/

/-- Letter value with both weight factors, as accumulated by the kernels. -/
def aW [Field R] (expf : R → R) (c : ℕ → ℕ → R) (al : ℕ → R) (g : ℕ → R) (j s : ℕ) : R :=
  c j s * (if j = 0 then 1 else expf (-g s * al (j - 1))) * expf (g s * al j)

/-- `np.exp` up to rounding: an exponential law. -/
structure ExpLike [Field R] [LinearOrder R] (expf : R → R) : Prop where
  add : ∀ x y, expf (x + y) = expf x * expf y
  pos : ∀ x, 0 < expf x

theorem ExpLike.zero [Field R] [LinearOrder R] [IsStrictOrderedRing R] {expf : R → R}
    (h : ExpLike expf) : expf 0 = 1 := by
  have h1 := h.add 0 0
  rw [add_zero] at h1
  have h2 := h.pos 0
  exact (mul_right_cancel₀ h2.ne' (by rw [one_mul, ← h1])).symm

theorem ExpLike.neg_mul [Field R] [LinearOrder R] [IsStrictOrderedRing R] {expf : R → R}
    (h : ExpLike expf) (x : R) : expf x * expf (-x) = 1 := by
  rw [← h.add]; simp [h.zero]

theorem prod_aW [Field R] [LinearOrder R] [IsStrictOrderedRing R] {expf : R → R}
    (h : ExpLike expf) (c : ℕ → ℕ → R) (al g : ℕ → R) (p : ℕ) (i : Fin (p + 1) → ℕ) :
    ∏ j : Fin (p + 1), aW expf c al g j (i j)
      = (∏ j : Fin (p + 1), c j (i j))
        * (∏ j : Fin p, expf (al j * (g (i j.castSucc) - g (i j.succ))))
        * expf (g (i (Fin.last p)) * al p) := by
  unfold aW
  rw [Finset.prod_mul_distrib, Finset.prod_mul_distrib]
  have h1 : (∏ j : Fin (p + 1), if (j : ℕ) = 0 then (1 : R) else expf (-g (i j) * al (j - 1)))
      = ∏ j : Fin p, expf (-g (i j.succ) * al j) := by
    rw [Fin.prod_univ_succ]; simp
  have h2 : (∏ j : Fin (p + 1), expf (g (i j) * al j))
      = (∏ j : Fin p, expf (g (i j.castSucc) * al j)) * expf (g (i (Fin.last p)) * al p) := by
    rw [Fin.prod_univ_castSucc]; simp
  have h3 : (∏ j : Fin p, expf (al j * (g (i j.castSucc) - g (i j.succ))))
      = (∏ j : Fin p, expf (-g (i j.succ) * al j))
        * ∏ j : Fin p, expf (g (i j.castSucc) * al j) := by
    rw [← Finset.prod_mul_distrib]
    apply Finset.prod_congr rfl
    intro j _
    rw [← h.add]; congr 1; ring
  rw [h1, h2, h3]; ring

theorem sum_gap [Field R] (c : ℕ → ℕ → R) (al g : ℕ → R) (p : ℕ) (i : Fin (p + 1) → ℕ) :
    ∑ j : Fin (p + 1), (c j (i j) - (if (j : ℕ) = 0 then 0 else g (i j) * al (j - 1))
        + g (i j) * al j)
      = (∑ j : Fin (p + 1), c j (i j))
        + (∑ j : Fin p, al j * (g (i j.castSucc) - g (i j.succ)))
        + g (i (Fin.last p)) * al p := by
  rw [Finset.sum_add_distrib, Finset.sum_sub_distrib]
  have h1 : (∑ j : Fin (p + 1), if (j : ℕ) = 0 then (0 : R) else g (i j) * al (j - 1))
      = ∑ j : Fin p, g (i j.succ) * al j := by
    rw [Fin.sum_univ_succ]; simp
  have h2 : (∑ j : Fin (p + 1), g (i j) * al j)
      = (∑ j : Fin p, g (i j.castSucc) * al j) + g (i (Fin.last p)) * al p := by
    rw [Fin.sum_univ_castSucc]; simp
  have h3 : (∑ j : Fin p, al j * (g (i j.castSucc) - g (i j.succ)))
      = (∑ j : Fin p, g (i j.castSucc) * al j) - ∑ j : Fin p, g (i j.succ) * al j := by
    rw [← Finset.sum_sub_distrib]
    apply Finset.sum_congr rfl
    intro j _; ring
  rw [h1, h2, h3]; ring

/-! ### closed forms of the kernels -/

section closed
variable [Field R]

/-- Letter values of a word. -/
def monos (Z : List (List R)) (word : List (List ℤ)) (j t : ℕ) : R := monomial Z (word.getD j []) t
/-- Letter values of a word (max-plus). -/
def lins (Z : List (List R)) (word : List (List ℤ)) (j t : ℕ) : R := linform Z (word.getD j []) t

private theorem monos_at {Z : List (List R)} {word : List (List ℤ)} {k : ℕ} (hk : k < word.length)
    (t : ℕ) : monomial Z word[k] t = monos Z word k t := by
  simp [monos, List.getD_eq_getElem?_getD, hk]

private theorem lins_at {Z : List (List R)} {word : List (List ℤ)} {k : ℕ} (hk : k < word.length)
    (t : ℕ) : linform Z word[k] t = lins Z word k t := by
  simp [lins, List.getD_eq_getElem?_getD, hk]

/-- `weights` has one entry per time step. -/
private theorem weights_tab {weights : List R} {n : ℕ} (hw : weights.length = n) :
    weights = tab n (fun t => weights.getD t 0) := by rw [← hw]; exact tab_of_list _ _

private theorem expW_tab (expf : R → R) {weights : List R} {n : ℕ} (hw : weights.length = n) (a : R) :
    expW expf weights a = tab n (fun t => expf (weights.getD t 0 * a)) := by
  conv_lhs => rw [weights_tab hw]
  simp [expW]

private theorem expNegW_tab (expf : R → R) {weights : List R} {n : ℕ} (hw : weights.length = n) (a : R) :
    expNegW expf weights a = tab n (fun t => expf (-weights.getD t 0 * a)) := by
  conv_lhs => rw [weights_tab hw]
  simp [expNegW]

private theorem wscale_tab {weights : List R} {n : ℕ} (hw : weights.length = n) (a : R) :
    vscale weights a = tab n (fun t => weights.getD t 0 * a) := by
  conv_lhs => rw [weights_tab hw]
  simp

theorem realsSingle_eq (expf : R → R) {Z : List (List R)} {n : ℕ} (hZ : Rect Z n) (hne : Z ≠ [])
    {word : List (List ℤ)} (hfit : ∀ el ∈ word, Fits Z el) (alpha : List R) {weights : List R}
    (hw : weights.length = n) {ext : ℕ} (he : ext ≤ word.length) :
    realsSingle expf Z word alpha weights ext = tab ext (fun r => tab n (fun t =>
      ∑ s ∈ Finset.range (t + 1),
        incSum (aW expf (monos Z word) (alpha.getD · 0) (weights.getD · 0))
          (word.length - ext + r) s
        * (monos Z word (word.length - ext + r) s *
          (if word.length - ext + r = 0 then 1
            else expf (-weights.getD s 0 * alpha.getD (word.length - ext + r - 1) 0))))) := by
  set a := aW expf (monos Z word) (alpha.getD · 0) (weights.getD · 0) with ha
  unfold realsSingle
  rw [ncols_eq hZ hne]
  refine kernel_loop word ext he
    (fun k => tab n (fun t => if k = 0 then 1 else incSum a k (t + 1)))
    (fun k => tab n (fun t => ∑ s ∈ Finset.range (t + 1), incSum a k s * (monos Z word k s *
          (if k = 0 then 1 else expf (-weights.getD s 0 * alpha.getD (k - 1) 0)))))
    (zeros n) _ _ (by intro _; simp) ?_
  intro k hk res hres
  have hfk := hfit _ (List.getElem_mem hk)
  have key : (let tmp := tab n (fun t => if k = 0 then 1 else incSum a k (t + 1))
      let tmp := if k > 0 then roll1z tmp else tmp
      let tmp := lettersMul Z word[k] tmp
      if k > 0 then vmul tmp (expNegW expf weights (alpha.getD (k - 1) 0)) else tmp)
      = tab n (fun s => incSum a k s * (monos Z word k s *
          (if k = 0 then 1 else expf (-weights.getD s 0 * alpha.getD (k - 1) 0)))) := by
    rcases Nat.eq_zero_or_pos k with rfl | h0
    · simp only [gt_iff_lt, lt_irrefl, if_false, if_true]
      rw [lettersMul_tab hZ hfk]
      apply tab_congr; intro t _
      rw [monos_at]; simp
    · simp only [gt_iff_lt, h0, if_true, h0.ne', if_false]
      rw [roll1z_tab, lettersMul_tab hZ hfk, expNegW_tab _ hw, vmul_tab]
      apply tab_congr; intro t _
      rw [monos_at]
      obtain ⟨m, rfl⟩ : ∃ m, k = m + 1 := ⟨k - 1, by omega⟩
      rcases Nat.eq_zero_or_pos t with rfl | ht
      · have : incSum a (m + 1) 0 = 0 := by rw [incSum_succ]; simp
        simp [this]
      · rw [if_neg ht.ne', show t - 1 + 1 = t by omega]; ring
  refine ⟨_, _, rfl, ?_, ?_⟩
  · intro _
    simp only at key ⊢
    rw [key, cumsum_tab]
  · intro hk'
    simp only at key ⊢
    rw [key, if_pos (by omega), expW_tab _ hw, vmul_tab, cumsum_tab]
    apply tab_congr; intro t _
    rw [if_neg (by omega), incSum_succ]
    apply Finset.sum_congr rfl
    intro s _
    simp only [ha, aW]
    ring

theorem totalReals_eq (expf : R → R) {Z : List (List R)} {n : ℕ} (hZ : Rect Z n) (hne : Z ≠ [])
    {word : List (List ℤ)} (hfit : ∀ el ∈ word, Fits Z el) (alpha : List R) {weights : List R}
    (hw : weights.length = n) {ext : ℕ} (he : ext ≤ word.length) :
    totalReals expf Z word alpha weights ext = tab ext (fun r => tab n (fun t =>
        incSum (aW expf (monos Z word) (alpha.getD · 0) (weights.getD · 0))
          (word.length - ext + r + 1) (t + 1)
        * expf (-weights.getD t 0 * alpha.getD (word.length - ext + r) 0))) := by
  set a := aW expf (monos Z word) (alpha.getD · 0) (weights.getD · 0) with ha
  unfold totalReals
  rw [ncols_eq hZ hne]
  refine kernel_loop word ext he
    (fun k => tab n (fun t => incSum a k t *
      (if k = 0 then 1 else expf (-weights.getD t 0 * alpha.getD (k - 1) 0))))
    (fun k => tab n (fun t => incSum a (k + 1) (t + 1)
        * expf (-weights.getD t 0 * alpha.getD k 0)))
    (zeros n) _ _ (by intro _; simp) ?_
  intro k hk res hres
  have hfk := hfit _ (List.getElem_mem hk)
  have key : cumsum (vmul (lettersMul Z word[k] (tab n (fun t => incSum a k t *
      (if k = 0 then 1 else expf (-weights.getD t 0 * alpha.getD (k - 1) 0)))))
        (expW expf weights (alpha.getD k 0)))
      = tab n (fun t => incSum a (k + 1) (t + 1)) := by
    rw [lettersMul_tab hZ hfk, expW_tab _ hw, vmul_tab, cumsum_tab]
    apply tab_congr; intro t _
    rw [incSum_succ]
    apply Finset.sum_congr rfl
    intro s _
    rw [monos_at]
    simp only [ha, aW]
    ring
  refine ⟨_, _, rfl, ?_, ?_⟩
  · intro _
    simp only
    rw [key, expNegW_tab _ hw, vmul_tab]
  · intro hk'
    simp only
    rw [key, if_pos (by omega), expNegW_tab _ hw, roll1z_tab, vmul_tab]
    apply tab_congr; intro t _
    rw [if_neg (by omega : k + 1 ≠ 0)]
    rcases Nat.eq_zero_or_pos t with rfl | ht
    · have : incSum a (k + 1) 0 = 0 := by rw [incSum_succ]; simp
      simp [this]
    · rw [if_neg ht.ne', show t - 1 + 1 = t by omega]; rfl

variable [LinearOrder R]

/-- Letter values with both weight terms (max-plus). -/
def aP (c : ℕ → ℕ → R) (al g : ℕ → R) (j s : ℕ) : R :=
  c j s - (if j = 0 then 0 else g s * al (j - 1)) + g s * al j

theorem arcticSingle_eq {Z : List (List R)} {n : ℕ} (hZ : Rect Z n) (hne : Z ≠ [])
    {word : List (List ℤ)} (hfit : ∀ el ∈ word, Fits Z el) (alpha : List R) {weights : List R}
    (hw : weights.length = n) {ext : ℕ} (he : ext ≤ word.length) :
    arcticSingle Z word alpha weights ext = tab ext (fun r => tab n (runMax fun s =>
        chainMax (· + ·) 0 (aP (lins Z word) (alpha.getD · 0) (weights.getD · 0))
          (word.length - ext + r) s
        + (lins Z word (word.length - ext + r) s -
          (if word.length - ext + r = 0 then 0
            else weights.getD s 0 * alpha.getD (word.length - ext + r - 1) 0)))) := by
  set a := aP (lins Z word) (alpha.getD · 0) (weights.getD · 0) with ha
  unfold arcticSingle
  rw [ncols_eq hZ hne]
  refine kernel_loop word ext he
    (fun k => tab n (fun t => chainMax (· + ·) 0 a k t))
    (fun k => tab n (runMax fun s => chainMax (· + ·) 0 a k s + (lins Z word k s -
          (if k = 0 then 0 else weights.getD s 0 * alpha.getD (k - 1) 0))))
    (zeros n) _ _ (by intro _; simp [chainMax]) ?_
  intro k hk res hres
  have hfk := hfit _ (List.getElem_mem hk)
  have key : (let tmp := lettersAdd Z word[k] (tab n (fun t => chainMax (· + ·) 0 a k t))
      if k > 0 then vsub tmp (vscale weights (alpha.getD (k - 1) 0)) else tmp)
      = tab n (fun s => chainMax (· + ·) 0 a k s + (lins Z word k s -
          (if k = 0 then 0 else weights.getD s 0 * alpha.getD (k - 1) 0))) := by
    rcases Nat.eq_zero_or_pos k with rfl | h0
    · simp only [gt_iff_lt, lt_irrefl, if_false, if_true]
      rw [lettersAdd_tab hZ hfk]
      apply tab_congr; intro t _
      rw [lins_at]; simp
    · simp only [gt_iff_lt, h0, if_true, h0.ne', if_false]
      rw [lettersAdd_tab hZ hfk, wscale_tab hw, vsub_tab]
      apply tab_congr; intro t _
      rw [lins_at]; ring
  refine ⟨_, _, rfl, ?_, ?_⟩
  · intro h
    simp only at key ⊢
    rw [key, hres, savedRows_getD hk he _ _ h, zeros_eq, maxRowLoop_tab]
  · intro hk'
    simp only at key ⊢
    rw [key, if_pos (by omega), wscale_tab hw, vadd_tab, maxLoop_tab]
    apply tab_congr; intro t _
    rw [chainMax]
    congr 1
    funext s
    simp only [ha, aP]
    ring

theorem totalArctic_eq {Z : List (List R)} {n : ℕ} (hZ : Rect Z n) (hne : Z ≠ [])
    {word : List (List ℤ)} (hfit : ∀ el ∈ word, Fits Z el) (alpha : List R) {weights : List R}
    (hw : weights.length = n) {ext : ℕ} (he : ext ≤ word.length) :
    totalArctic Z word alpha weights ext = tab ext (fun r => tab n (fun t =>
        chainMax (· + ·) 0 (aP (lins Z word) (alpha.getD · 0) (weights.getD · 0))
          (word.length - ext + r + 1) t
        - weights.getD t 0 * alpha.getD (word.length - ext + r) 0)) := by
  set a := aP (lins Z word) (alpha.getD · 0) (weights.getD · 0) with ha
  unfold totalArctic
  rw [ncols_eq hZ hne]
  refine kernel_loop word ext he
    (fun k => tab n (fun t => chainMax (· + ·) 0 a k t -
      (if k = 0 then 0 else weights.getD t 0 * alpha.getD (k - 1) 0)))
    (fun k => tab n (fun t => chainMax (· + ·) 0 a (k + 1) t
        - weights.getD t 0 * alpha.getD k 0))
    (zeros n) _ _ (by intro _; simp [chainMax]) ?_
  intro k hk res hres
  have hfk := hfit _ (List.getElem_mem hk)
  have key : maxLoop (vadd (lettersAdd Z word[k] (tab n (fun t => chainMax (· + ·) 0 a k t -
      (if k = 0 then 0 else weights.getD t 0 * alpha.getD (k - 1) 0))))
        (vscale weights (alpha.getD k 0)))
      = tab n (fun t => chainMax (· + ·) 0 a (k + 1) t) := by
    rw [lettersAdd_tab hZ hfk, wscale_tab hw, vadd_tab, maxLoop_tab]
    apply tab_congr; intro t _
    rw [chainMax]
    congr 1
    funext s
    rw [lins_at]
    simp only [ha, aP]
    ring
  refine ⟨_, _, rfl, ?_, ?_⟩
  · intro _
    simp only
    rw [key, wscale_tab hw, vsub_tab]
  · intro hk'
    simp only
    rw [key, if_pos (by omega), wscale_tab hw, vsub_tab]
    apply tab_congr; intro t _
    rw [if_neg (by omega : k + 1 ≠ 0)]
    rfl

theorem bayesianSingle_eq (expf : R → R) {Z : List (List R)} {n : ℕ} (hZ : Rect Z n) (hne : Z ≠ [])
    {word : List (List ℤ)} (hfit : ∀ el ∈ word, Fits Z el) (alpha : List R) {weights : List R}
    (hw : weights.length = n) {ext : ℕ} (he : ext ≤ word.length) :
    bayesianSingle expf Z word alpha weights ext = tab ext (fun r => tab n (runMax fun s =>
        chainMax (· * ·) 1 (aW expf (monos Z word) (alpha.getD · 0) (weights.getD · 0))
          (word.length - ext + r) s
        * (monos Z word (word.length - ext + r) s *
          (if word.length - ext + r = 0 then 1
            else expf (-weights.getD s 0 * alpha.getD (word.length - ext + r - 1) 0))))) := by
  set a := aW expf (monos Z word) (alpha.getD · 0) (weights.getD · 0) with ha
  unfold bayesianSingle
  rw [ncols_eq hZ hne]
  refine kernel_loop word ext he
    (fun k => tab n (fun t => chainMax (· * ·) 1 a k t))
    (fun k => tab n (runMax fun s => chainMax (· * ·) 1 a k s * (monos Z word k s *
          (if k = 0 then 1 else expf (-weights.getD s 0 * alpha.getD (k - 1) 0)))))
    (ones n) _ _ (by intro _; simp [chainMax]) ?_
  intro k hk res hres
  have hfk := hfit _ (List.getElem_mem hk)
  have key : (let tmp := lettersMul Z word[k] (tab n (fun t => chainMax (· * ·) 1 a k t))
      if k > 0 then vmul tmp (expNegW expf weights (alpha.getD (k - 1) 0)) else tmp)
      = tab n (fun s => chainMax (· * ·) 1 a k s * (monos Z word k s *
          (if k = 0 then 1 else expf (-weights.getD s 0 * alpha.getD (k - 1) 0)))) := by
    rcases Nat.eq_zero_or_pos k with rfl | h0
    · simp only [gt_iff_lt, lt_irrefl, if_false, if_true]
      rw [lettersMul_tab hZ hfk]
      apply tab_congr; intro t _
      rw [monos_at]; simp
    · simp only [gt_iff_lt, h0, if_true, h0.ne', if_false]
      rw [lettersMul_tab hZ hfk, expNegW_tab _ hw, vmul_tab]
      apply tab_congr; intro t _
      rw [monos_at]; ring
  refine ⟨_, _, rfl, ?_, ?_⟩
  · intro h
    simp only at key ⊢
    rw [key, hres, savedRows_getD hk he _ _ h, ones_eq, maxRowLoop_tab]
  · intro hk'
    simp only at key ⊢
    rw [key, if_pos (by omega), expW_tab _ hw, vmul_tab, maxLoop_tab]
    apply tab_congr; intro t _
    rw [chainMax]
    congr 1
    funext s
    simp only [ha, aW]
    ring

theorem totalBayesian_eq (expf : R → R) {Z : List (List R)} {n : ℕ} (hZ : Rect Z n) (hne : Z ≠ [])
    {word : List (List ℤ)} (hfit : ∀ el ∈ word, Fits Z el) (alpha : List R) {weights : List R}
    (hw : weights.length = n) {ext : ℕ} (he : ext ≤ word.length) :
    totalBayesian expf Z word alpha weights ext = tab ext (fun r => tab n (fun t =>
        chainMax (· * ·) 1 (aW expf (monos Z word) (alpha.getD · 0) (weights.getD · 0))
          (word.length - ext + r + 1) t
        * expf (-weights.getD t 0 * alpha.getD (word.length - ext + r) 0))) := by
  set a := aW expf (monos Z word) (alpha.getD · 0) (weights.getD · 0) with ha
  unfold totalBayesian
  rw [ncols_eq hZ hne]
  refine kernel_loop word ext he
    (fun k => tab n (fun t => chainMax (· * ·) 1 a k t *
      (if k = 0 then 1 else expf (-weights.getD t 0 * alpha.getD (k - 1) 0))))
    (fun k => tab n (fun t => chainMax (· * ·) 1 a (k + 1) t
        * expf (-weights.getD t 0 * alpha.getD k 0)))
    (zeros n) _ _ (by intro _; simp [chainMax]) ?_
  intro k hk res hres
  have hfk := hfit _ (List.getElem_mem hk)
  have key : maxLoop (vmul (lettersMul Z word[k] (tab n (fun t => chainMax (· * ·) 1 a k t *
      (if k = 0 then 1 else expf (-weights.getD t 0 * alpha.getD (k - 1) 0)))))
        (expW expf weights (alpha.getD k 0)))
      = tab n (fun t => chainMax (· * ·) 1 a (k + 1) t) := by
    rw [lettersMul_tab hZ hfk, expW_tab _ hw, vmul_tab, maxLoop_tab]
    apply tab_congr; intro t _
    rw [chainMax]
    congr 1
    funext s
    rw [monos_at]
    simp only [ha, aW]
    ring
  refine ⟨_, _, rfl, ?_, ?_⟩
  · intro _
    simp only
    rw [key, expNegW_tab _ hw, vmul_tab]
  · intro hk'
    simp only
    rw [key, if_pos (by omega), expNegW_tab _ hw, vmul_tab]
    apply tab_congr; intro t _
    rw [if_neg (by omega : k + 1 ≠ 0)]
    rfl

end closed

end Fruits
