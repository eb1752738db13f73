import Verif.RoundedLemmas

/-! # The rounded kernels approximate the exact ones -/

namespace Fruits
set_option linter.unusedSectionVars false
variable {R : Type} [Field R] [LinearOrder R] [IsStrictOrderedRing R]
variable {F : Fp R}

/-- The exponential function the machine computes. -/
def Fp.mexp (F : Fp R) (expf : R → R) (x : R) : R := F.rnd (expf (F.rnd x))

theorem Fp.expW_tab (F : Fp R) (expf : R → R) {weights : List R} {n : ℕ} (hw : weights.length = n) (a : R) :
    F.expW expf weights a = tab n (fun t => F.mexp expf (weights.getD t 0 * a)) := by
  have : weights = tab n (fun t => weights.getD t 0) := by rw [← hw]; exact tab_of_list _ _
  conv_lhs => rw [this]
  simp [Fp.expW, Fp.mexp]

theorem Fp.expNegW_tab (F : Fp R) (expf : R → R) {weights : List R} {n : ℕ} (hw : weights.length = n) (a : R) :
    F.expNegW expf weights a = tab n (fun t => F.mexp expf (-weights.getD t 0 * a)) := by
  have : weights = tab n (fun t => weights.getD t 0) := by rw [← hw]; exact tab_of_list _ _
  conv_lhs => rw [this]
  simp [Fp.expNegW, Fp.mexp]

theorem Fp.vscale_near (F : Fp R) {weights : List R} {n : ℕ} (hw : weights.length = n) (a : R) (k : ℕ) :
    NearV F n (k + 1) (fun t => weights.getD t 0 * a) (fun t => |weights.getD t 0 * a|) (F.vscale weights a) := by
  have : weights = tab n (fun t => weights.getD t 0) := by rw [← hw]; exact tab_of_list _ _
  conv => rw [this]
  refine ⟨fun t => F.rnd (weights.getD t 0 * a), by simp [Fp.vscale], fun t ht => ?_⟩
  dsimp only
  rw [tab_getD _ _ _ _ ht]
  exact (Near.refl 0 _).rnd.mono (by omega)

theorem nearV_const (n k : ℕ) (c : R) : NearV F n k (fun _ => c) (fun _ => |c|) (List.replicate n c) :=
  ⟨_, replicate_eq_tab _ _, fun _ _ => Near.refl k c⟩

/-- Number of rounded operations behind an entry of the row of a word (multiplicative kernels): the factors of the
letters, two weight factors per letter and `m` additions (`m = n` for cumulative sums, `m = 0` for maxima). -/
def mulCost (m : ℕ) (word : List (List ℤ)) : ℕ := (word.map fun el => letterCost el + m + 2).sum

/-- The same for the additive kernel: one operation per dimension and two per letter for the weights, and one product. -/
def addCost (word : List (List ℤ)) : ℕ := 1 + (word.map fun el => el.length + 2).sum

theorem mulCost_take (m : ℕ) {word : List (List ℤ)} {k : ℕ} (hk : k < word.length) :
    mulCost m (word.take (k + 1)) = mulCost m (word.take k) + (letterCost word[k] + m + 2) := by
  unfold mulCost
  rw [List.take_succ_eq_append_getElem hk, List.map_append, List.sum_append]
  simp only [List.map_cons, List.map_nil, List.sum_cons, List.sum_nil, add_zero]

theorem addCost_take {word : List (List ℤ)} {k : ℕ} (hk : k < word.length) :
    addCost (word.take (k + 1)) = addCost (word.take k) + (word[k].length + 2) := by
  unfold addCost
  rw [List.take_succ_eq_append_getElem hk, List.map_append, List.sum_append]
  simp only [List.map_cons, List.map_nil, List.sum_cons, List.sum_nil, add_zero]
  omega

theorem monos_at' {Z : List (List R)} {word : List (List ℤ)} {k : ℕ} (hk : k < word.length)
    (t : ℕ) : monomial Z word[k] t = monos Z word k t := by
  simp [monos, List.getD_eq_getElem?_getD, hk]

theorem lins_at' {Z : List (List R)} {word : List (List ℤ)} {k : ℕ} (hk : k < word.length)
    (t : ℕ) : linform Z word[k] t = lins Z word k t := by
  simp [lins, List.getD_eq_getElem?_getD, hk]

/-- Absolute letter values (max-plus). -/
def absLins (Z : List (List R)) (word : List (List ℤ)) (j t : ℕ) : R := absLinform Z (word.getD j []) t

theorem absLins_at {Z : List (List R)} {word : List (List ℤ)} {k : ℕ} (hk : k < word.length)
    (t : ℕ) : absLinform Z word[k] t = absLins Z word k t := by
  simp [absLins, List.getD_eq_getElem?_getD, hk]

theorem abs_aW (m : R → R) (c : ℕ → ℕ → R) (al g : ℕ → R) (j s : ℕ) :
    |aW m c al g j s| = |c j s| * (if j = 0 then 1 else |m (-g s * al (j - 1))|) * |m (g s * al j)| := by
  unfold aW
  rw [abs_mul, abs_mul]
  split <;> simp

variable {Z : List (List R)} {n : ℕ} {word : List (List ℤ)} {weights : List R} {ext : ℕ}

theorem Fp.totalReals_near (expf : R → R) (hZ : Rect Z n) (hne : Z ≠ []) (hfit : ∀ el ∈ word, Fits Z el)
    (alpha : List R) (hw : weights.length = n) (he : ext ≤ word.length) :
    (F.totalReals expf Z word alpha weights ext).length = ext ∧ ∀ r < ext,
      NearV F n (mulCost n (word.take (word.length - ext + r + 1)))
        (fun t => incSum (aW (F.mexp expf) (monos Z word) (alpha.getD · 0) (weights.getD · 0))
            (word.length - ext + r + 1) (t + 1) * F.mexp expf (-weights.getD t 0 * alpha.getD (word.length - ext + r) 0))
        (fun t => incSum (fun j s => |aW (F.mexp expf) (monos Z word) (alpha.getD · 0) (weights.getD · 0) j s|)
            (word.length - ext + r + 1) (t + 1) * |F.mexp expf (-weights.getD t 0 * alpha.getD (word.length - ext + r) 0)|)
        ((F.totalReals expf Z word alpha weights ext).getD r []) := by
  set m := F.mexp expf with hm
  set a := aW m (monos Z word) (alpha.getD · 0) (weights.getD · 0) with ha
  set b : ℕ → ℕ → R := fun j s => |a j s| with hb
  unfold Fp.totalReals
  rw [ncols_eq hZ hne]
  refine kernel_inv word ext he
    (fun k => NearV F n (mulCost n (word.take k))
      (fun t => incSum a k t * (if k = 0 then 1 else m (-weights.getD t 0 * alpha.getD (k - 1) 0)))
      (fun t => incSum b k t * |if k = 0 then 1 else m (-weights.getD t 0 * alpha.getD (k - 1) 0)|))
    (fun k => NearV F n (mulCost n (word.take (k + 1)))
      (fun t => incSum a (k + 1) (t + 1) * m (-weights.getD t 0 * alpha.getD k 0))
      (fun t => incSum b (k + 1) (t + 1) * |m (-weights.getD t 0 * alpha.getD k 0)|))
    (zeros n) _ _ (fun _ => (nearV_const n _ 1).of_eq le_rfl (by simp) (by simp)) ?_
  intro k hk tmp res hP _
  have hfk := hfit _ (List.getElem_mem hk)
  have key : NearV F n (mulCost n (word.take k) + letterCost word[k] + 1 + n)
      (fun t => incSum a (k + 1) (t + 1)) (fun t => incSum b (k + 1) (t + 1))
      (F.cumsum (F.vmul (F.lettersMul Z word[k] tmp) (F.expW expf weights (alpha.getD k 0)))) := by
    rw [F.expW_tab expf hw]
    refine ((hP.lettersMul hZ hfk).vmul _).cumsum.of_eq le_rfl ?_ ?_
    · intro t _
      rw [incSum_succ]
      apply Finset.sum_congr rfl
      intro s _
      rw [monos_at']
      simp only [ha, aW, hm]
      ring
    · intro t _
      rw [incSum_succ]
      apply Finset.sum_congr rfl
      intro s _
      rw [monos_at' hk]
      simp only [hb, ha, abs_aW, hm, apply_ite abs, abs_one]
      ring
  refine ⟨_, _, rfl, ?_, ?_⟩
  · intro _
    simp only
    rw [F.expNegW_tab expf hw]
    refine (key.vmul _).of_eq ?_ (fun _ _ => rfl) (fun _ _ => rfl)
    rw [mulCost_take n hk]; omega
  · intro hk'
    simp only
    rw [if_pos (by omega), F.expNegW_tab expf hw]
    have z : ∀ c : ℕ → ℕ → R, incSum c (k + 1) 0 = 0 := fun c => by rw [incSum_succ]; simp
    refine (key.roll.vmul _).of_eq ?_ ?_ ?_
    · rw [mulCost_take n hk]; omega
    · intro t _
      rw [if_neg (by omega : k + 1 ≠ 0)]
      rcases Nat.eq_zero_or_pos t with rfl | ht
      · simp [z]
      · rw [if_neg ht.ne', show t - 1 + 1 = t by omega]; rfl
    · intro t _
      rw [if_neg (by omega : k + 1 ≠ 0)]
      rcases Nat.eq_zero_or_pos t with rfl | ht
      · simp [z]
      · rw [if_neg ht.ne', show t - 1 + 1 = t by omega]; rfl

theorem Fp.realsSingle_near (expf : R → R) (hZ : Rect Z n) (hne : Z ≠ []) (hfit : ∀ el ∈ word, Fits Z el)
    (alpha : List R) (hw : weights.length = n) (he : ext ≤ word.length) :
    (F.realsSingle expf Z word alpha weights ext).length = ext ∧ ∀ r < ext,
      NearV F n (mulCost n (word.take (word.length - ext + r + 1)))
        (fun t => ∑ s ∈ Finset.range (t + 1),
          incSum (aW (F.mexp expf) (monos Z word) (alpha.getD · 0) (weights.getD · 0)) (word.length - ext + r) s
          * (monos Z word (word.length - ext + r) s * (if word.length - ext + r = 0 then 1
            else F.mexp expf (-weights.getD s 0 * alpha.getD (word.length - ext + r - 1) 0))))
        (fun t => ∑ s ∈ Finset.range (t + 1),
          incSum (fun j s => |aW (F.mexp expf) (monos Z word) (alpha.getD · 0) (weights.getD · 0) j s|)
            (word.length - ext + r) s
          * |monos Z word (word.length - ext + r) s * (if word.length - ext + r = 0 then 1
            else F.mexp expf (-weights.getD s 0 * alpha.getD (word.length - ext + r - 1) 0))|)
        ((F.realsSingle expf Z word alpha weights ext).getD r []) := by
  set m := F.mexp expf with hm
  set a := aW m (monos Z word) (alpha.getD · 0) (weights.getD · 0) with ha
  set b : ℕ → ℕ → R := fun j s => |a j s| with hb
  unfold Fp.realsSingle
  rw [ncols_eq hZ hne]
  refine kernel_inv word ext he
    (fun k => NearV F n (mulCost n (word.take k))
      (fun t => if k = 0 then 1 else incSum a k (t + 1)) (fun t => if k = 0 then 1 else incSum b k (t + 1)))
    (fun k => NearV F n (mulCost n (word.take (k + 1)))
      (fun t => ∑ s ∈ Finset.range (t + 1), incSum a k s * (monos Z word k s *
          (if k = 0 then 1 else m (-weights.getD s 0 * alpha.getD (k - 1) 0))))
      (fun t => ∑ s ∈ Finset.range (t + 1), incSum b k s * |monos Z word k s *
          (if k = 0 then 1 else m (-weights.getD s 0 * alpha.getD (k - 1) 0))|))
    (zeros n) _ _ (fun _ => (nearV_const n _ 1).of_eq le_rfl (by simp) (by simp)) ?_
  intro k hk tmp res hP _
  have hfk := hfit _ (List.getElem_mem hk)
  have key : NearV F n (mulCost n (word.take k) + letterCost word[k] + 1)
      (fun s => incSum a k s * (monos Z word k s *
          (if k = 0 then 1 else m (-weights.getD s 0 * alpha.getD (k - 1) 0))))
      (fun s => incSum b k s * |monos Z word k s *
          (if k = 0 then 1 else m (-weights.getD s 0 * alpha.getD (k - 1) 0))|)
      (let tmp := if k > 0 then roll1z tmp else tmp
      let tmp := F.lettersMul Z word[k] tmp
      if k > 0 then F.vmul tmp (F.expNegW expf weights (alpha.getD (k - 1) 0)) else tmp) := by
    rcases Nat.eq_zero_or_pos k with rfl | h0
    · simp only [gt_iff_lt, lt_irrefl, if_false, if_true] at hP ⊢
      refine (hP.lettersMul hZ hfk).of_eq (by omega) ?_ ?_ <;>
      · intro t _
        rw [monos_at']; simp
    · simp only [gt_iff_lt, h0, if_true, h0.ne', if_false] at hP ⊢
      rw [F.expNegW_tab expf hw]
      have z : ∀ c : ℕ → ℕ → R, incSum c k 0 = 0 := fun c => by
        obtain ⟨j, rfl⟩ : ∃ j, k = j + 1 := ⟨k - 1, by omega⟩
        rw [incSum_succ]; simp
      refine ((hP.roll.lettersMul hZ hfk).vmul _).of_eq le_rfl ?_ ?_
      · intro t _
        rw [monos_at']
        rcases Nat.eq_zero_or_pos t with rfl | ht
        · simp [z]
        · rw [if_neg ht.ne', show t - 1 + 1 = t by omega]; ring
      · intro t _
        rw [monos_at', abs_mul]
        rcases Nat.eq_zero_or_pos t with rfl | ht
        · simp [z]
        · rw [if_neg ht.ne', show t - 1 + 1 = t by omega]; ring
  refine ⟨_, _, rfl, ?_, ?_⟩
  · intro _
    refine key.cumsum.of_eq ?_ (fun _ _ => rfl) (fun _ _ => rfl)
    rw [mulCost_take n hk]; omega
  · intro hk'
    simp only at key ⊢
    rw [if_pos (by omega), F.expW_tab expf hw]
    refine (key.vmul _).cumsum.of_eq ?_ ?_ ?_
    · rw [mulCost_take n hk]; omega
    · intro t _
      rw [if_neg (by omega), incSum_succ]
      apply Finset.sum_congr rfl
      intro s _
      simp only [ha, aW, hm]
      ring
    · intro t _
      rw [if_neg (by omega), incSum_succ]
      apply Finset.sum_congr rfl
      intro s _
      simp only [hb, ha, abs_aW, abs_mul, hm, apply_ite abs, abs_one]
      ring

/-- Absolute letter values with both weight terms (max-plus). -/
def absP (c : ℕ → ℕ → R) (al g : ℕ → R) (j s : ℕ) : R :=
  c j s + (if j = 0 then 0 else |g s * al (j - 1)|) + |g s * al j|

theorem Fp.totalArctic_near (hZ : Rect Z n) (hne : Z ≠ []) (hfit : ∀ el ∈ word, Fits Z el)
    (alpha : List R) (hw : weights.length = n) (he : ext ≤ word.length) :
    (F.totalArctic Z word alpha weights ext).length = ext ∧ ∀ r < ext,
      NearV F n (addCost (word.take (word.length - ext + r + 1)))
        (fun t => chainMax (· + ·) 0 (aP (lins Z word) (alpha.getD · 0) (weights.getD · 0))
            (word.length - ext + r + 1) t - weights.getD t 0 * alpha.getD (word.length - ext + r) 0)
        (fun t => chainMax (· + ·) 0 (absP (absLins Z word) (alpha.getD · 0) (weights.getD · 0))
            (word.length - ext + r + 1) t + |weights.getD t 0 * alpha.getD (word.length - ext + r) 0|)
        ((F.totalArctic Z word alpha weights ext).getD r []) := by
  set a := aP (lins Z word) (alpha.getD · 0) (weights.getD · 0) with ha
  set b := absP (absLins Z word) (alpha.getD · 0) (weights.getD · 0) with hb
  unfold Fp.totalArctic
  rw [ncols_eq hZ hne]
  refine kernel_inv word ext he
    (fun k => NearV F n (addCost (word.take k))
      (fun t => chainMax (· + ·) 0 a k t - (if k = 0 then 0 else weights.getD t 0 * alpha.getD (k - 1) 0))
      (fun t => chainMax (· + ·) 0 b k t + (if k = 0 then 0 else |weights.getD t 0 * alpha.getD (k - 1) 0|)))
    (fun k => NearV F n (addCost (word.take (k + 1)))
      (fun t => chainMax (· + ·) 0 a (k + 1) t - weights.getD t 0 * alpha.getD k 0)
      (fun t => chainMax (· + ·) 0 b (k + 1) t + |weights.getD t 0 * alpha.getD k 0|))
    (zeros n) _ _ (fun _ => (nearV_const n _ 0).of_eq le_rfl (by simp [chainMax]) (by simp [chainMax])) ?_
  intro k hk tmp res hP _
  have hfk := hfit _ (List.getElem_mem hk)
  obtain ⟨c, hc⟩ : ∃ c, addCost (word.take k) = c + 1 := ⟨_, Nat.add_comm _ _⟩
  rw [hc] at hP
  have key : NearV F n (c + 1 + word[k].length + 1)
      (fun t => chainMax (· + ·) 0 a (k + 1) t) (fun t => chainMax (· + ·) 0 b (k + 1) t)
      (Fruits.maxLoop (F.vadd (F.lettersAdd Z word[k] tmp) (F.vscale weights (alpha.getD k 0)))) := by
    have hv := (F.vscale_near hw (alpha.getD k 0) c).of_eq (l := c + 1 + word[k].length) (by omega)
      (fun _ _ => rfl) (fun _ _ => rfl)
    refine ((hP.lettersAdd hZ hfk).vadd hv).maxLoop.of_eq le_rfl ?_ ?_
    · intro t _
      rw [chainMax]
      congr 1
      funext s
      rw [lins_at']
      simp only [ha, aP]
      ring
    · intro t _
      rw [chainMax]
      congr 1
      funext s
      rw [absLins_at]
      simp only [hb, absP]
      ring
  refine ⟨_, _, rfl, ?_, ?_⟩
  · intro _
    have hv := (F.vscale_near hw (alpha.getD k 0) c).of_eq (l := c + 1 + word[k].length + 1) (by omega)
      (fun _ _ => rfl) (fun _ _ => rfl)
    refine (key.vsub hv).of_eq ?_ (fun _ _ => rfl) (fun _ _ => rfl)
    rw [addCost_take hk]; omega
  · intro hk'
    simp only
    rw [if_pos (by omega)]
    have hv := (F.vscale_near hw (alpha.getD k 0) c).of_eq (l := c + 1 + word[k].length + 1) (by omega)
      (fun _ _ => rfl) (fun _ _ => rfl)
    refine (key.vsub hv).of_eq ?_ ?_ ?_
    · rw [addCost_take hk]; omega
    · intro t _
      rw [if_neg (by omega : k + 1 ≠ 0)]; rfl
    · intro t _
      rw [if_neg (by omega : k + 1 ≠ 0)]; rfl

theorem Fp.arcticSingle_near (hZ : Rect Z n) (hne : Z ≠ []) (hfit : ∀ el ∈ word, Fits Z el)
    (alpha : List R) (hw : weights.length = n) (he : ext ≤ word.length) :
    (F.arcticSingle Z word alpha weights ext).length = ext ∧ ∀ r < ext,
      NearV F n (addCost (word.take (word.length - ext + r + 1)))
        (runMax fun s => chainMax (· + ·) 0 (aP (lins Z word) (alpha.getD · 0) (weights.getD · 0))
            (word.length - ext + r) s + (lins Z word (word.length - ext + r) s -
              (if word.length - ext + r = 0 then 0
                else weights.getD s 0 * alpha.getD (word.length - ext + r - 1) 0)))
        (runMax fun s => chainMax (· + ·) 0 (absP (absLins Z word) (alpha.getD · 0) (weights.getD · 0))
            (word.length - ext + r) s + (absLins Z word (word.length - ext + r) s +
              (if word.length - ext + r = 0 then 0
                else |weights.getD s 0 * alpha.getD (word.length - ext + r - 1) 0|)))
        ((F.arcticSingle Z word alpha weights ext).getD r []) := by
  set a := aP (lins Z word) (alpha.getD · 0) (weights.getD · 0) with ha
  set b := absP (absLins Z word) (alpha.getD · 0) (weights.getD · 0) with hb
  unfold Fp.arcticSingle
  rw [ncols_eq hZ hne]
  refine kernel_inv word ext he
    (fun k => NearV F n (addCost (word.take k)) (fun t => chainMax (· + ·) 0 a k t)
      (fun t => chainMax (· + ·) 0 b k t))
    (fun k => NearV F n (addCost (word.take (k + 1)))
      (runMax fun s => chainMax (· + ·) 0 a k s + (lins Z word k s -
          (if k = 0 then 0 else weights.getD s 0 * alpha.getD (k - 1) 0)))
      (runMax fun s => chainMax (· + ·) 0 b k s + (absLins Z word k s +
          (if k = 0 then 0 else |weights.getD s 0 * alpha.getD (k - 1) 0|))))
    (zeros n) _ _ (fun _ => (nearV_const n _ 0).of_eq le_rfl (by simp [chainMax]) (by simp [chainMax])) ?_
  intro k hk tmp res hP hres
  have hfk := hfit _ (List.getElem_mem hk)
  obtain ⟨c, hc⟩ : ∃ c, addCost (word.take k) = c + 1 := ⟨_, Nat.add_comm _ _⟩
  rw [hc] at hP
  have key : NearV F n (c + 1 + word[k].length + 1)
      (fun s => chainMax (· + ·) 0 a k s + (lins Z word k s -
          (if k = 0 then 0 else weights.getD s 0 * alpha.getD (k - 1) 0)))
      (fun s => chainMax (· + ·) 0 b k s + (absLins Z word k s +
          (if k = 0 then 0 else |weights.getD s 0 * alpha.getD (k - 1) 0|)))
      (let tmp := F.lettersAdd Z word[k] tmp
      if k > 0 then F.vsub tmp (F.vscale weights (alpha.getD (k - 1) 0)) else tmp) := by
    rcases Nat.eq_zero_or_pos k with rfl | h0
    · simp only [gt_iff_lt, lt_irrefl, if_false, if_true]
      refine (hP.lettersAdd hZ hfk).of_eq (by omega) ?_ ?_
      · intro t _
        rw [lins_at']; simp
      · intro t _
        rw [absLins_at]; simp
    · simp only [gt_iff_lt, h0, if_true, h0.ne', if_false]
      have hv := (F.vscale_near hw (alpha.getD (k - 1) 0) c).of_eq (l := c + 1 + word[k].length) (by omega)
        (fun _ _ => rfl) (fun _ _ => rfl)
      refine ((hP.lettersAdd hZ hfk).vsub hv).of_eq le_rfl ?_ ?_
      · intro t _
        rw [lins_at']; ring
      · intro t _
        rw [absLins_at]; ring
  refine ⟨_, _, rfl, ?_, ?_⟩
  · intro h
    simp only at key ⊢
    rw [hres h, zeros_eq]
    refine (key.maxRow _).of_eq ?_ (fun _ _ => rfl) (fun _ _ => rfl)
    rw [addCost_take hk]; omega
  · intro hk'
    simp only at key ⊢
    rw [if_pos (by omega)]
    have hv := (F.vscale_near hw (alpha.getD k 0) c).of_eq (l := c + 1 + word[k].length + 1) (by omega)
      (fun _ _ => rfl) (fun _ _ => rfl)
    refine (key.vadd hv).maxLoop.of_eq ?_ ?_ ?_
    · rw [addCost_take hk]; omega
    · intro t _
      rw [chainMax]
      congr 1
      funext s
      simp only [ha, aP]
      ring
    · intro t _
      rw [chainMax]
      congr 1
      funext s
      simp only [hb, absP]
      ring

theorem Fp.totalBayesian_near (expf : R → R) (hZ : Rect Z n) (hne : Z ≠ []) (hfit : ∀ el ∈ word, Fits Z el)
    (alpha : List R) (hw : weights.length = n) (he : ext ≤ word.length) :
    (F.totalBayesian expf Z word alpha weights ext).length = ext ∧ ∀ r < ext,
      NearV F n (mulCost 0 (word.take (word.length - ext + r + 1)))
        (fun t => chainMax (· * ·) 1 (aW (F.mexp expf) (monos Z word) (alpha.getD · 0) (weights.getD · 0))
            (word.length - ext + r + 1) t * F.mexp expf (-weights.getD t 0 * alpha.getD (word.length - ext + r) 0))
        (fun t => chainMax (· * ·) 1
            (fun j s => |aW (F.mexp expf) (monos Z word) (alpha.getD · 0) (weights.getD · 0) j s|)
            (word.length - ext + r + 1) t * |F.mexp expf (-weights.getD t 0 * alpha.getD (word.length - ext + r) 0)|)
        ((F.totalBayesian expf Z word alpha weights ext).getD r []) := by
  set m := F.mexp expf with hm
  set a := aW m (monos Z word) (alpha.getD · 0) (weights.getD · 0) with ha
  set b : ℕ → ℕ → R := fun j s => |a j s| with hb
  unfold Fp.totalBayesian
  rw [ncols_eq hZ hne]
  refine kernel_inv word ext he
    (fun k => NearV F n (mulCost 0 (word.take k))
      (fun t => chainMax (· * ·) 1 a k t * (if k = 0 then 1 else m (-weights.getD t 0 * alpha.getD (k - 1) 0)))
      (fun t => chainMax (· * ·) 1 b k t * |if k = 0 then 1 else m (-weights.getD t 0 * alpha.getD (k - 1) 0)|))
    (fun k => NearV F n (mulCost 0 (word.take (k + 1)))
      (fun t => chainMax (· * ·) 1 a (k + 1) t * m (-weights.getD t 0 * alpha.getD k 0))
      (fun t => chainMax (· * ·) 1 b (k + 1) t * |m (-weights.getD t 0 * alpha.getD k 0)|))
    (zeros n) _ _ (fun _ => (nearV_const n _ 1).of_eq le_rfl (by simp [chainMax]) (by simp [chainMax])) ?_
  intro k hk tmp res hP _
  have hfk := hfit _ (List.getElem_mem hk)
  have key : NearV F n (mulCost 0 (word.take k) + letterCost word[k] + 1)
      (fun t => chainMax (· * ·) 1 a (k + 1) t) (fun t => chainMax (· * ·) 1 b (k + 1) t)
      (Fruits.maxLoop (F.vmul (F.lettersMul Z word[k] tmp) (F.expW expf weights (alpha.getD k 0)))) := by
    rw [F.expW_tab expf hw]
    refine ((hP.lettersMul hZ hfk).vmul _).maxLoop.of_eq le_rfl ?_ ?_
    · intro t _
      rw [chainMax]
      congr 1
      funext s
      rw [monos_at']
      simp only [ha, aW, hm]
      ring
    · intro t _
      rw [chainMax]
      congr 1
      funext s
      rw [monos_at' hk]
      simp only [hb, ha, abs_aW, hm, apply_ite abs, abs_one]
      ring
  refine ⟨_, _, rfl, ?_, ?_⟩
  · intro _
    simp only
    rw [F.expNegW_tab expf hw]
    refine (key.vmul _).of_eq ?_ (fun _ _ => rfl) (fun _ _ => rfl)
    rw [mulCost_take 0 hk]; omega
  · intro hk'
    simp only
    rw [if_pos (by omega), F.expNegW_tab expf hw]
    refine (key.vmul _).of_eq ?_ ?_ ?_
    · rw [mulCost_take 0 hk]; omega
    · intro t _
      rw [if_neg (by omega : k + 1 ≠ 0)]; rfl
    · intro t _
      rw [if_neg (by omega : k + 1 ≠ 0)]; rfl

theorem Fp.bayesianSingle_near (expf : R → R) (hZ : Rect Z n) (hne : Z ≠ []) (hfit : ∀ el ∈ word, Fits Z el)
    (alpha : List R) (hw : weights.length = n) (he : ext ≤ word.length) :
    (F.bayesianSingle expf Z word alpha weights ext).length = ext ∧ ∀ r < ext,
      NearV F n (mulCost 0 (word.take (word.length - ext + r + 1)))
        (runMax fun s => chainMax (· * ·) 1 (aW (F.mexp expf) (monos Z word) (alpha.getD · 0) (weights.getD · 0))
            (word.length - ext + r) s * (monos Z word (word.length - ext + r) s *
              (if word.length - ext + r = 0 then 1
                else F.mexp expf (-weights.getD s 0 * alpha.getD (word.length - ext + r - 1) 0))))
        (runMax fun s => chainMax (· * ·) 1
            (fun j s => |aW (F.mexp expf) (monos Z word) (alpha.getD · 0) (weights.getD · 0) j s|)
            (word.length - ext + r) s * |monos Z word (word.length - ext + r) s *
              (if word.length - ext + r = 0 then 1
                else F.mexp expf (-weights.getD s 0 * alpha.getD (word.length - ext + r - 1) 0))|)
        ((F.bayesianSingle expf Z word alpha weights ext).getD r []) := by
  set m := F.mexp expf with hm
  set a := aW m (monos Z word) (alpha.getD · 0) (weights.getD · 0) with ha
  set b : ℕ → ℕ → R := fun j s => |a j s| with hb
  unfold Fp.bayesianSingle
  rw [ncols_eq hZ hne]
  refine kernel_inv word ext he
    (fun k => NearV F n (mulCost 0 (word.take k)) (fun t => chainMax (· * ·) 1 a k t)
      (fun t => chainMax (· * ·) 1 b k t))
    (fun k => NearV F n (mulCost 0 (word.take (k + 1)))
      (runMax fun s => chainMax (· * ·) 1 a k s * (monos Z word k s *
          (if k = 0 then 1 else m (-weights.getD s 0 * alpha.getD (k - 1) 0))))
      (runMax fun s => chainMax (· * ·) 1 b k s * |monos Z word k s *
          (if k = 0 then 1 else m (-weights.getD s 0 * alpha.getD (k - 1) 0))|))
    (ones n) _ _ (fun _ => (nearV_const n _ 1).of_eq le_rfl (by simp [chainMax]) (by simp [chainMax])) ?_
  intro k hk tmp res hP hres
  have hfk := hfit _ (List.getElem_mem hk)
  have key : NearV F n (mulCost 0 (word.take k) + letterCost word[k] + 1)
      (fun s => chainMax (· * ·) 1 a k s * (monos Z word k s *
          (if k = 0 then 1 else m (-weights.getD s 0 * alpha.getD (k - 1) 0))))
      (fun s => chainMax (· * ·) 1 b k s * |monos Z word k s *
          (if k = 0 then 1 else m (-weights.getD s 0 * alpha.getD (k - 1) 0))|)
      (let tmp := F.lettersMul Z word[k] tmp
      if k > 0 then F.vmul tmp (F.expNegW expf weights (alpha.getD (k - 1) 0)) else tmp) := by
    rcases Nat.eq_zero_or_pos k with rfl | h0
    · simp only [gt_iff_lt, lt_irrefl, if_false, if_true]
      refine (hP.lettersMul hZ hfk).of_eq (by omega) ?_ ?_ <;>
      · intro t _
        rw [monos_at']; simp
    · simp only [gt_iff_lt, h0, if_true, h0.ne', if_false]
      rw [F.expNegW_tab expf hw]
      refine ((hP.lettersMul hZ hfk).vmul _).of_eq le_rfl ?_ ?_
      · intro t _
        rw [monos_at']; ring
      · intro t _
        rw [monos_at', abs_mul]; ring
  refine ⟨_, _, rfl, ?_, ?_⟩
  · intro h
    simp only at key ⊢
    rw [hres h, ones_eq]
    refine (key.maxRow _).of_eq ?_ (fun _ _ => rfl) (fun _ _ => rfl)
    rw [mulCost_take 0 hk]; omega
  · intro hk'
    simp only at key ⊢
    rw [if_pos (by omega), F.expW_tab expf hw]
    refine (key.vmul _).maxLoop.of_eq ?_ ?_ ?_
    · rw [mulCost_take 0 hk]; omega
    · intro t _
      rw [chainMax]
      congr 1
      funext s
      simp only [ha, aW, hm]
      ring
    · intro t _
      rw [chainMax]
      congr 1
      funext s
      simp only [hb, ha, abs_aW, abs_mul, hm, apply_ite abs, abs_one]
      ring

end Fruits
