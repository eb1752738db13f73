import Verif.Props.Cos2
import Mathlib.Data.Nat.Choose.Basic

/-! # CosWISS for every exponent (C88)

What the code computes for an arbitrary exponent, and that it is the documented sum exactly for exponents up to 4. -/

namespace Fruits
set_option linter.unusedSectionVars false
open Finset

variable {R : Type} [Field R] [LinearOrder R] [FloorRing R] [NpMath R]

/-! ### Specification -/

/-- Character number `j` (a decimal digit) of the binomial coefficient `C(s,k)`, followed by `s - k` and `k`. -/
def binomDigit (s k j : ℕ) : ℕ :=
  ((Nat.toDigits 10 (s.choose k) ++ Nat.toDigits 10 (s - k) ++ Nat.toDigits 10 k).getD j '0').toNat - '0'.toNat

/-- The weight the code uses in place of `cos(pi * (b - a) / (f * (N - 1))) ** s`: the binomial expansion of
`(sin α sin β + cos α cos β) ** s`, but with single digits as coefficients and exponents. -/
def digitWeight (pi f : R) (n s a b : ℕ) : R :=
  ∑ k ∈ Finset.range (s + 1), (binomDigit s k 0 : R) *
    ((NpMath.sin (pi * (a : R) / (f * ((n : R) - 1))) * NpMath.sin (pi * (b : R) / (f * ((n : R) - 1)))) ^ binomDigit s k 1 *
     (NpMath.cos (pi * (a : R) / (f * ((n : R) - 1))) * NpMath.cos (pi * (b : R) / (f * ((n : R) - 1)))) ^ binomDigit s k 2)

/-- `cosSum` with the weight `W` for consecutive indices. -/
def weightedSum (W : ℕ → ℕ → R) (total : Bool) (Z : List (List R)) (word : List (List ℤ)) (t : ℕ) : R :=
  ∑ i ∈ incTuples word.length (t + 1), (∏ j : Fin word.length, monomial Z (word.getD j []) (i j)) *
    ∏ j : Fin word.length, if (j : ℕ) + 1 < word.length ∨ total = true then W (i j) (nextIdx i t j) else 1

/-! ### The strings -/

theorem trigLoop_eq (s : ℕ) : ∀ m k, k + m = s + 1 → trigLoop s m k (s - k) k (s.choose k)
    = (List.range m).map fun j => Nat.toDigits 10 (s.choose (k + j)) ++ Nat.toDigits 10 (s - (k + j)) ++ Nat.toDigits 10 (k + j)
  | 0, _, _ => rfl
  | m + 1, k, h => by
    have hc : s.choose k * (s - k) / (k + 1) = s.choose (k + 1) := by
      rw [← Nat.choose_succ_right_eq]
      exact Nat.mul_div_cancel _ (Nat.succ_pos k)
    unfold trigLoop
    rw [hc, Nat.sub_sub, trigLoop_eq s m (k + 1) (by omega), List.range_succ_eq_map, List.map_cons, List.map_map]
    congr 1
    apply List.map_congr_left
    intro j _
    simp only [Function.comp]
    rw [show k + 1 + j = k + j.succ by omega]

theorem trigPoly_eq (s : ℕ) (x y : R) :
    trigPoly s x y = ∑ k ∈ Finset.range (s + 1), (binomDigit s k 0 : R) * (x ^ binomDigit s k 1 * y ^ binomDigit s k 2) := by
  unfold trigPoly trigIds
  have := trigLoop_eq s (s + 1) 0 (by omega)
  rw [Nat.sub_zero, Nat.choose_zero_right] at this
  rw [this, List.map_map, ← sum_map_range]
  congr 1
  apply List.map_congr_left
  intro k _
  simp only [Function.comp, charInt, Nat.zero_add, binomDigit]

theorem penalty_eq (W : ℕ → ℕ → R) (total : Bool) {p : ℕ} (i : Fin p → ℕ) (t : ℕ) :
    (∏ j : Fin p, if (j : ℕ) + 1 < p ∨ total = true then W (i j) (nextIdx i t j) else 1)
      = ∏ j ∈ Finset.range (cosPairs total p), W (extIdx i t j) (extIdx i t (j + 1)) := by
  have hx : ∀ j : Fin p, nextIdx i t j = extIdx i t (j + 1) := fun j => rfl
  have hy : ∀ j : Fin p, i j = extIdx i t j := fun j => by simp [extIdx]
  have : (∏ j : Fin p, if (j : ℕ) + 1 < p ∨ total = true then W (i j) (nextIdx i t j) else 1)
      = ∏ j ∈ Finset.range p, if j + 1 < p ∨ total = true then W (extIdx i t j) (extIdx i t (j + 1)) else 1 := by
    rw [Finset.prod_range]
    apply Finset.prod_congr rfl
    intro j _
    rw [hx, ← hy]
  rw [this]
  cases total with
  | true => simp [cosPairs]
  | false =>
    cases p with
    | zero => simp [cosPairs]
    | succ p =>
      rw [Finset.prod_range_succ]
      simp only [cosPairs, Bool.false_eq_true, or_false, if_false, lt_irrefl, mul_one, Nat.add_sub_cancel]
      apply Finset.prod_congr rfl
      intro j hj
      rw [if_pos (by have := Finset.mem_range.1 hj; omega)]

theorem coswissSingle_general (pi f : R) (s : ℕ) (total : Bool) {Z : List (List R)} {n : ℕ} (hZ : Rect Z n) (hne : Z ≠ [])
    {word : List (List ℤ)} (hw : word ≠ []) (hfit : ∀ el ∈ word, Fits Z el) :
    coswissSingle pi Z word f (getWeightings s total word.length) = tab n (weightedSum (digitWeight pi f n s) total Z word) := by
  rw [coswissSingle_eq_leaky, leaky_general pi f s total hZ hne hw hfit]
  apply tab_congr; intro t _
  unfold weightedSum
  apply Finset.sum_congr rfl
  intro i _
  rw [penalty_eq]
  refine congrArg₂ (· * ·) (Finset.prod_congr rfl fun j _ => if_neg (by simp)) (Finset.prod_congr rfl fun j _ => trigPoly_eq s _ _)

/-- **C88, every exponent.** `CosWISS` with any exponent returns the sum over index tuples with the weights `digitWeight`. -/
theorem C88_every_exponent (pi : R) (c : CosWISS R) (words : List (SWord R)) (X : Data R) (d n : ℕ)
    (hin : CosInput words X d n) (hne : words ≠ []) (hffn : c.ffnSize = none) (hdrop : c.dropout = none) :
    ∃ out, c.transform pi words X = .ok out ∧ out.length = c.freqs.length * words.length ∧
      ∀ w (hw : w < words.length) f (hf : f < c.freqs.length) i (hi : i < X.length),
        (out.getD (w * c.freqs.length + f) []).getD i []
          = tab n (weightedSum (digitWeight pi c.freqs[f] n c.exponent) c.total X[i] words[w].els) := by
  obtain ⟨out, h1, h2, h3⟩ := transform_of_words pi c words X hne (fun w f Z =>
      coswissSingle pi Z (words.getD w ⟨[], 0, [], none⟩).els (c.freqs.getD f 0)
        (getWeightings c.exponent c.total (words.getD w ⟨[], 0, [], none⟩).els.length)) (by
    intro w hw
    rw [wordResult_plain pi c hffn hdrop X w _ (hin.letters _ (List.getElem_mem hw))]
    simp [List.getD_eq_getElem?_getD, hw])
  refine ⟨out, h1, h2, ?_⟩
  intro w hw f hf i hi
  rw [h3 w hw f hf i hi]
  have hZ := hin.data X[i] (List.getElem_mem hi)
  have hgw : words.getD w ⟨[], 0, [], none⟩ = words[w] := by simp [List.getD_eq_getElem?_getD, hw]
  have hgf : c.freqs.getD f 0 = c.freqs[f] := by simp [List.getD_eq_getElem?_getD, hf]
  rw [hgw, hgf, coswissSingle_general pi _ _ _ hZ.2 (List.length_pos_iff.1 (by rw [hZ.1]; exact hin.dims))
    (hin.letters _ (List.getElem_mem hw))
    (fun el hel => by unfold Fits; rw [hZ.1]; exact hin.fits _ (List.getElem_mem hw) el hel)]

/-! ### The documented sum is computed only for exponents up to 4 -/

theorem digit_le_nine {c : Char} (h : c.isDigit = true) : c.toNat - '0'.toNat ≤ 9 := by
  simp only [Char.isDigit, Bool.and_eq_true, decide_eq_true_eq] at h
  have h2 : c.val.toNat ≤ 57 := h.2
  show c.val.toNat - 48 ≤ 9
  omega

theorem binomDigit_le (s k j : ℕ) : binomDigit s k j ≤ 9 := by
  unfold binomDigit
  set l := Nat.toDigits 10 (s.choose k) ++ Nat.toDigits 10 (s - k) ++ Nat.toDigits 10 k with hl
  have hall : ∀ c ∈ l, c.isDigit = true := by
    intro c hc
    simp only [hl, List.mem_append] at hc
    rcases hc with (hc | hc) | hc <;> exact Nat.isDigit_of_mem_toDigits (by norm_num) (by norm_num) hc
  rw [List.getD_eq_getElem?_getD]
  rcases h : l[j]? with _ | c
  · simp
  · exact digit_le_nine (hall c (List.mem_of_getElem? h))

/-- For exponents from 10 on the digits cannot be the exponent. -/
theorem digit_sum_large (s : ℕ) (hs : 10 ≤ s) :
    ∑ k ∈ Finset.range (s + 1), (binomDigit s k 0 : ℝ) * ((0 : ℝ) ^ binomDigit s k 1 * (1 / 2 : ℝ) ^ binomDigit s k 2) ≠ (1 / 2) ^ s := by
  intro h
  have hpos : (0 : ℝ) < (1 / 2) ^ s := by positivity
  have hterm : ∀ k ∈ Finset.range (s + 1), (0 : ℝ) ≤ (binomDigit s k 0 : ℝ) * ((0 : ℝ) ^ binomDigit s k 1 * (1 / 2 : ℝ) ^ binomDigit s k 2) :=
    fun k _ => by positivity
  rw [← h] at hpos
  obtain ⟨k, hk, hkne⟩ := Finset.exists_ne_zero_of_sum_ne_zero hpos.ne'
  have hkpos := lt_of_le_of_ne (hterm k hk) (Ne.symm hkne)
  have hle := Finset.single_le_sum hterm hk
  rw [h] at hle
  have h0 : binomDigit s k 0 ≠ 0 := by rintro h0; rw [h0] at hkpos; simp at hkpos
  have h1 : binomDigit s k 1 = 0 := by
    by_contra h1
    rw [zero_pow h1] at hkpos; simp at hkpos
  rw [h1, pow_zero, one_mul] at hle
  have h2 : (1 / 2 : ℝ) ^ 9 ≤ (1 / 2) ^ binomDigit s k 2 := pow_le_pow_of_le_one (by norm_num) (by norm_num) (binomDigit_le s k 2)
  have h3 : (1 : ℝ) ≤ (binomDigit s k 0 : ℝ) := by exact_mod_cast Nat.one_le_iff_ne_zero.2 h0
  have h4 : (1 / 2 : ℝ) ^ s < (1 / 2) ^ 9 := pow_lt_pow_right_of_lt_one₀ (by norm_num) (by norm_num) (by omega)
  have h5 : (1 / 2 : ℝ) ^ binomDigit s k 2 ≤ (binomDigit s k 0 : ℝ) * (1 / 2) ^ binomDigit s k 2 :=
    le_mul_of_one_le_left (by positivity) h3
  linarith

theorem pair_sum (W : ℕ → ℕ → ℝ) (x : List ℝ) (t a b : ℕ) (hab : a < b) (hb : b ≤ t)
    (h : ∀ i j, i < j → j ≤ t → ¬ (i = a ∧ j = b) → x.getD i 0 = 0) :
    weightedSum W false [x] [[1], [1]] t = x.getD a 0 * x.getD b 0 * W a b := by
  unfold weightedSum
  show ∑ i ∈ incTuples 2 (t + 1), _ = _
  rw [Finset.sum_eq_single ![a, b]]
  · simp [Fin.prod_univ_two, nextIdx, monomial, entry]
  · intro i hi hne
    rw [mem_incTuples] at hi
    have h01 : i 0 < i 1 := hi.2 (show (0 : Fin 2) < 1 by decide)
    have h1 := hi.1 1
    have : x.getD (i 0) 0 = 0 := by
      refine h (i 0) (i 1) h01 (by omega) ?_
      rintro ⟨e0, e1⟩
      apply hne
      funext j
      fin_cases j
      · exact e0
      · exact e1
    have hm : monomial [x] [1] (i 0) = 0 := by
      rw [List.getD_eq_getElem?_getD] at this
      simp [monomial, entry, this]
    refine mul_eq_zero_of_left (Finset.prod_eq_zero (Finset.mem_univ (0 : Fin 2)) ?_) _
    exact hm
  · intro hni
    exfalso
    apply hni
    rw [mem_incTuples]
    refine ⟨fun j => by fin_cases j <;> simp <;> omega, ?_⟩
    intro p q hpq
    fin_cases p <;> fin_cases q <;> simp_all

theorem cosSum_eq_weightedSum (pi f : R) (n s : ℕ) (total : Bool) (Z : List (List R)) (word : List (List ℤ)) (t : ℕ) :
    cosSum pi f n s total Z word (fun _ => []) t = weightedSum (cosWeight pi f n s) total Z word t := by
  unfold cosSum weightedSum cosPenalty
  simp

/-- The series `x` of length `n` with the word `[1][1]` and the frequency `f`. -/
theorem false_from (s : ℕ) (x : List ℝ) (n : ℕ) (hn : 2 ≤ n) (hx : x.length = n) (f : ℝ) (t : ℕ) (ht : t < n)
    (h : weightedSum (digitWeight Real.pi f n s) false [x] [[1], [1]] t ≠ weightedSum (cosWeight Real.pi f n s) false [x] [[1], [1]] t) :
    ∀ out, ({ freqs := [f], exponent := s } : CosWISS ℝ).transform Real.pi [⟨[[1], [1]], 1, [], none⟩] [[x]] = .ok out →
      ((out.getD 0 []).getD 0 []).getD t 0 ≠ cosSum Real.pi f n s false [x] [[1], [1]] (fun _ => []) t := by
  intro out ho
  obtain ⟨out', h1, -, h3⟩ := C88_every_exponent Real.pi ({ freqs := [f], exponent := s } : CosWISS ℝ) [⟨[[1], [1]], 1, [], none⟩] [[x]] 1 n
    ⟨by intro Z hZ; simp only [List.mem_singleton] at hZ; subst hZ; simp [Rect, hx], hn, by norm_num, by simp, by simp⟩ (by simp) rfl rfl
  rw [ho] at h1
  cases h1
  have h4 := h3 0 (by simp) 0 (by simp) 0 (by simp)
  simp only [Nat.zero_mul, Nat.zero_add, List.getElem_cons_zero] at h4
  rw [h4, getD_tab ht, cosSum_eq_weightedSum]
  exact h

/-- **C88 fails for every exponent from 5 on**: there is a series, a frequency and a time step for which the result for the word
`[1][1]` is not the documented sum. Together with `C88_coswiss_partial` (exponents up to 4): the documented sum is computed
for all data exactly if the exponent is at most 4. -/
theorem C88_false_from_five (s : ℕ) (hs : 5 ≤ s) :
    ∃ (x : List ℝ) (f : ℝ) (t : ℕ), f ≠ 0 ∧ t < x.length ∧ 2 ≤ x.length ∧
      ∀ out, ({ freqs := [f], exponent := s } : CosWISS ℝ).transform Real.pi [⟨[[1], [1]], 1, [], none⟩] [[x]] = .ok out →
        ((out.getD 0 []).getD 0 []).getD t 0 ≠ cosSum Real.pi f x.length s false [x] [[1], [1]] (fun _ => []) t := by
  have hsin : ∀ x : ℝ, NpMath.sin x = Real.sin x := fun _ => rfl
  have hcos : ∀ x : ℝ, NpMath.cos x = Real.cos x := fun _ => rfl
  rcases Nat.lt_or_ge s 10 with h10 | h10
  · refine ⟨[0, 1, 1], 3 / 2, 2, by norm_num, by simp, by simp, false_from s [0, 1, 1] 3 (by norm_num) rfl (3 / 2) 2 (by omega) ?_⟩
    have hp : ∀ W : ℕ → ℕ → ℝ, weightedSum W false [[0, 1, 1]] [[1], [1]] 2 = W 1 2 := by
      intro W
      rw [pair_sum W [0, 1, 1] 2 1 2 (by norm_num) le_rfl]
      · simp
      · intro i j hij hj hne
        have : i = 0 := by omega
        subst this; rfl
    rw [hp, hp]
    have a1 : Real.pi * ((1 : ℕ) : ℝ) / (3 / 2 * (((3 : ℕ) : ℝ) - 1)) = Real.pi / 3 := by norm_num
    have a2 : Real.pi * ((2 : ℕ) : ℝ) / (3 / 2 * (((3 : ℕ) : ℝ) - 1)) = Real.pi - Real.pi / 3 := by norm_num; ring
    have a3 : Real.pi * (((2 : ℕ) : ℝ) - ((1 : ℕ) : ℝ)) / (3 / 2 * (((3 : ℕ) : ℝ) - 1)) = Real.pi / 3 := by norm_num
    have b1 : Real.sin (Real.pi / 3) * Real.sin (Real.pi - Real.pi / 3) = 3 / 4 := by
      rw [Real.sin_pi_sub, Real.sin_pi_div_three, ← mul_div_mul_comm, Real.mul_self_sqrt (by norm_num)]; norm_num
    have b2 : Real.cos (Real.pi / 3) * Real.cos (Real.pi - Real.pi / 3) = -1 / 4 := by
      rw [Real.cos_pi_sub, Real.cos_pi_div_three]; norm_num
    unfold digitWeight cosWeight
    rw [a1, a2, a3, hsin, hsin, hcos, hcos, b1, b2, Real.cos_pi_div_three]
    have key : (∑ k ∈ Finset.range (s + 1), (binomDigit s k 0 : ℚ) * ((3 / 4) ^ binomDigit s k 1 * (-1 / 4) ^ binomDigit s k 2)) ≠ (1 / 2) ^ s := by
      interval_cases s <;> decide +kernel
    intro hc
    apply key
    have : (((∑ k ∈ Finset.range (s + 1), (binomDigit s k 0 : ℚ) * ((3 / 4) ^ binomDigit s k 1 * (-1 / 4) ^ binomDigit s k 2)) : ℚ) : ℝ)
        = (((1 / 2) ^ s : ℚ) : ℝ) := by push_cast; exact hc
    exact_mod_cast this
  · refine ⟨[1, 1], 3, 1, by norm_num, by simp, by simp, false_from s [1, 1] 2 (by norm_num) rfl 3 1 (by omega) ?_⟩
    have hp : ∀ W : ℕ → ℕ → ℝ, weightedSum W false [[1, 1]] [[1], [1]] 1 = W 0 1 := by
      intro W
      rw [pair_sum W [1, 1] 1 0 1 (by norm_num) le_rfl]
      · simp
      · intro i j hij hj hne
        omega
    rw [hp, hp]
    have a1 : Real.pi * ((0 : ℕ) : ℝ) / (3 * (((2 : ℕ) : ℝ) - 1)) = 0 := by simp
    have a2 : Real.pi * ((1 : ℕ) : ℝ) / (3 * (((2 : ℕ) : ℝ) - 1)) = Real.pi / 3 := by norm_num
    have a3 : Real.pi * (((1 : ℕ) : ℝ) - ((0 : ℕ) : ℝ)) / (3 * (((2 : ℕ) : ℝ) - 1)) = Real.pi / 3 := by norm_num
    unfold digitWeight cosWeight
    rw [a1, a2, a3, hsin, hsin, hcos, hcos, Real.sin_zero, zero_mul, Real.cos_zero, one_mul, Real.cos_pi_div_three]
    exact digit_sum_large s h10

end Fruits
