import Verif.Props.Rounded1

/-!
# C153 for users: `ISS(words, semiring=…).transform(X)` without weighting, in floating point

The exact values are written with `Verif.Spec` only (`monomial`, `linform`, `incTuples`).
-/

namespace Fruits
set_option linter.unusedSectionVars false
variable {R : Type} [Field R] [LinearOrder R] [IsStrictOrderedRing R] [FloorRing R]

theorem mexp_zero (F : Fp R) {expf : R → R} (h : expf 0 = 1) : F.mexp expf 0 = 1 := by
  rw [Fp.mexp, F.zero, h, F.one]

theorem zeros_getD (m k : ℕ) : (zeros m : List R).getD k 0 = 0 := by
  simp only [zeros, List.getD_eq_getElem?_getD, List.getElem?_replicate]
  split <;> rfl

/-- Entry `(i, j, t)` of the rounded transform without weighting. -/
theorem issSingle_entry (F : Fp R) (expf : R → R) (k : RKind) {X : Data R} {D n : ℕ} {words : List (SWord R)}
    (hadm : Admissible X D n words) {i j : ℕ} (hi : i < words.length) (hj : j < X.length) (t : ℕ) :
    at3 (F.issSingle expf k words none X) i j t
      = at2 (F.fastSingle expf k X[j] words[i].els (zeros words[i].els.length) (zeros n) 1 true) 0 t := by
  have hZ := hadm.data _ (List.getElem_mem hj)
  have hne : X[j] ≠ [] := by
    intro h; have := hZ.1; rw [h] at this; simp at this; have := hadm.dims; omega
  have h1 : (F.issSingle expf k words none X).getD i []
      = (F.iteratedSums expf k X words[i] 1 none).map fun rows => rows.getD 0 [] := by
    simp [Fp.issSingle, List.getD_eq_getElem?_getD, hi]
  have h2 : ((F.iteratedSums expf k X words[i] 1 none).map fun rows => rows.getD 0 []).getD j []
      = (F.fastSingle expf k X[j] words[i].els (zeros words[i].els.length) (zeros n) 1 true).getD 0 [] := by
    simp only [List.getD_eq_getElem?_getD, List.getElem?_map, Fp.iteratedSums, List.getElem?_mapIdx,
      List.getElem?_eq_getElem hj, Option.map_some, Option.getD_some]
    rw [ncols_eq hZ.2 hne]
  rw [at3, h1, h2, at2]

/-- What the theorems below need from `Admissible`. -/
theorem admissible_word {X : Data R} {D n : ℕ} {words : List (SWord R)} (hadm : Admissible X D n words) {i j : ℕ}
    (hi : i < words.length) (hj : j < X.length) :
    Rect X[j] n ∧ X[j] ≠ [] ∧ (∀ el ∈ words[i].els, Fits X[j] el) ∧ 1 ≤ words[i].els.length := by
  have hZ := hadm.data _ (List.getElem_mem hj)
  refine ⟨hZ.2, ?_, ?_, ?_⟩
  · intro h; have := hZ.1; rw [h] at this; simp at this; have := hadm.dims; omega
  · intro el hel
    unfold Fits; rw [hZ.1]; exact hadm.fits _ (List.getElem_mem hi) el hel
  · exact List.length_pos_iff.2 (hadm.letters _ (List.getElem_mem hi))

private theorem prod_getD' {p : ℕ} {α : Type} (els : List α) (d : α) (hp : els.length = p)
    (f : α → ℕ → R) (i : Fin p → ℕ) :
    ∏ j : Fin p, f (els.getD j d) (i j) = ∏ j : Fin p, f (els[(j : ℕ)]'(by omega)) (i j) := by
  apply Finset.prod_congr rfl
  intro j _
  have : (j : ℕ) < els.length := by omega
  simp [List.getD_eq_getElem?_getD, this]

private theorem sum_getD' {p : ℕ} {α : Type} (els : List α) (d : α) (hp : els.length = p)
    (f : α → ℕ → R) (i : Fin p → ℕ) :
    ∑ j : Fin p, f (els.getD j d) (i j) = ∑ j : Fin p, f (els[(j : ℕ)]'(by omega)) (i j) := by
  apply Finset.sum_congr rfl
  intro j _
  have : (j : ℕ) < els.length := by omega
  simp [List.getD_eq_getElem?_getD, this]

/-- **C153** (`Reals`, no weighting): the computed entry differs from the strict iterated sum by at most
`(1 + u)^N - 1` times the iterated sum of the absolute values, `N` = number of letters with multiplicity plus
`n + 2` per extended letter. -/
theorem C153_reals (F : Fp R) {expf : R → R} (hexp : expf 0 = 1) {X : Data R} {D n : ℕ} {words : List (SWord R)}
    (hadm : Admissible X D n words) (_hdiv : NoZeroDivision X n words) {i j t : ℕ} (hi : i < words.length)
    (hj : j < X.length) (ht : t < n) :
    |at3 (F.issSingle expf .reals words none X) i j t
        - ∑ s ∈ incTuples words[i].els.length (t + 1),
            ∏ k : Fin words[i].els.length, monomial X[j] words[i].els[k] (s k)|
      ≤ ((1 + F.u) ^ (words[i].els.map fun el => (el.map Int.natAbs).sum + n + 2).sum - 1)
        * ∑ s ∈ incTuples words[i].els.length (t + 1),
            ∏ k : Fin words[i].els.length, |monomial X[j] words[i].els[k] (s k)| := by
  obtain ⟨hZ, hne, hfit, hp⟩ := admissible_word hadm hi hj
  rw [issSingle_entry F expf .reals hadm hi hj]
  have h := ((Fp.totalReals_near (F := F) expf hZ hne hfit (zeros words[i].els.length) (weights := zeros n) (by simp)
    hp).2 0 (by omega)).entry ht
  rw [show words[i].els.length - 1 + 0 + 1 = words[i].els.length by omega, List.take_length] at h
  simp only [zeros_getD, neg_zero, mul_zero, mexp_zero F hexp, mul_one, abs_one] at h
  have e : aW (F.mexp expf) (monos X[j] words[i].els) (fun _ => 0) (fun _ => 0) = monos X[j] words[i].els := by
    funext a b
    simp [aW, mexp_zero F hexp]
  rw [e] at h
  have e1 : incSum (monos X[j] words[i].els) words[i].els.length (t + 1)
      = ∑ s ∈ incTuples words[i].els.length (t + 1),
          ∏ k : Fin words[i].els.length, monomial X[j] words[i].els[k] (s k) :=
    Finset.sum_congr rfl fun s _ => prod_getD' words[i].els [] rfl (fun el s => monomial X[j] el s) s
  have e2 : incSum (fun a b => |monos X[j] words[i].els a b|) words[i].els.length (t + 1)
      = ∑ s ∈ incTuples words[i].els.length (t + 1),
          ∏ k : Fin words[i].els.length, |monomial X[j] words[i].els[k] (s k)| :=
    Finset.sum_congr rfl fun s _ => prod_getD' words[i].els [] rfl (fun el s => |monomial X[j] el s|) s
  rw [e1, e2] at h
  exact h

/-- **C153** (`Reals`, non-negative data): a relative error. -/
theorem C153_reals_relative (F : Fp R) {expf : R → R} (hexp : expf 0 = 1) {X : Data R} {D n : ℕ}
    {words : List (SWord R)} (hadm : Admissible X D n words) (hdiv : NoZeroDivision X n words) (hX : Nonnegative X)
    {i j t : ℕ} (hi : i < words.length) (hj : j < X.length) (ht : t < n) :
    |at3 (F.issSingle expf .reals words none X) i j t
        - ∑ s ∈ incTuples words[i].els.length (t + 1),
            ∏ k : Fin words[i].els.length, monomial X[j] words[i].els[k] (s k)|
      ≤ ((1 + F.u) ^ (words[i].els.map fun el => (el.map Int.natAbs).sum + n + 2).sum - 1)
        * ∑ s ∈ incTuples words[i].els.length (t + 1),
            ∏ k : Fin words[i].els.length, monomial X[j] words[i].els[k] (s k) := by
  have h := C153_reals F hexp hadm hdiv hi hj ht
  have hm : ∀ (el : List ℤ) (s : ℕ), |monomial X[j] el s| = monomial X[j] el s := fun el s =>
    abs_of_nonneg (Finset.prod_nonneg fun d _ => zpow_nonneg (hX _ (List.getElem_mem hj) d s) _)
  simp only [hm] at h
  exact h

/-- **C153** (`Arctic`, no weighting): `M` is the exact maximum over all `i_1 ≤ … ≤ i_p ≤ t`, `A` the maximum of the sums
of absolute values. -/
theorem C153_arctic (F : Fp R) (expf : R → R) {X : Data R} {D n : ℕ} {words : List (SWord R)}
    (hadm : Admissible X D n words) {i j t : ℕ} (hi : i < words.length) (hj : j < X.length) (ht : t < n) {M A : R}
    (hM : IsGreatest {v | ∃ s : Fin words[i].els.length → ℕ, Monotone s ∧ (∀ k, s k ≤ t) ∧
      v = ∑ k : Fin words[i].els.length, linform X[j] words[i].els[k] (s k)} M)
    (hA : IsGreatest {v | ∃ s : Fin words[i].els.length → ℕ, Monotone s ∧ (∀ k, s k ≤ t) ∧
      v = ∑ k : Fin words[i].els.length, ∑ d ∈ Finset.range words[i].els[k].length,
        |(words[i].els[k].getD d 0 : R) * entry X[j] d (s k)|} A) :
    |at3 (F.issSingle expf .arctic words none X) i j t - M|
      ≤ ((1 + F.u) ^ (1 + (words[i].els.map fun el => el.length + 2).sum) - 1) * A := by
  obtain ⟨hZ, hne, hfit, hp⟩ := admissible_word hadm hi hj
  rw [issSingle_entry F expf .arctic hadm hi hj]
  have h := ((Fp.totalArctic_near (F := F) hZ hne hfit (zeros words[i].els.length) (weights := zeros n) (by simp)
    hp).2 0 (by omega)).entry ht
  rw [show words[i].els.length - 1 + 0 + 1 = words[i].els.length by omega, List.take_length] at h
  simp only [zeros_getD, mul_zero, sub_zero, abs_zero, add_zero] at h
  have e : aP (lins X[j] words[i].els) (fun _ => (0 : R)) (fun _ => 0) = lins X[j] words[i].els := by
    funext a b; simp [aP]
  have e' : absP (absLins X[j] words[i].els) (fun _ => (0 : R)) (fun _ => 0) = absLins X[j] words[i].els := by
    funext a b; simp [absP]
  rw [e, e'] at h
  have key : ∀ (c : List ℤ → ℕ → R) (V : R), IsGreatest {v | ∃ s : Fin words[i].els.length → ℕ, Monotone s ∧
      (∀ k, s k ≤ t) ∧ v = ∑ k : Fin words[i].els.length, c words[i].els[k] (s k)} V →
      V = chainMax (· + ·) 0 (fun a b => c (words[i].els.getD a []) b) words[i].els.length t := by
    intro c V hV
    refine hV.unique ?_
    convert chainMax_isGreatest (· + ·) (0 : R) (fun a b => c (words[i].els.getD a []) b) words[i].els.length n
      (fun _ _ _ _ x y h => by simpa using h) t ht using 1
    ext v
    constructor
    · rintro ⟨s, h1, h2, rfl⟩
      exact ⟨s, ⟨h1, h2⟩, by rw [chainVal_add, zero_add]; exact (sum_getD' words[i].els [] rfl c s).symm⟩
    · rintro ⟨s, ⟨h1, h2⟩, rfl⟩
      exact ⟨s, h1, h2, by rw [chainVal_add, zero_add]; exact sum_getD' words[i].els [] rfl c s⟩
  rw [key (fun el s => linform X[j] el s) M hM, key (fun el s => absLinform X[j] el s) A hA]
  exact h

/-- **C153** (`Bayesian`, non-negative data, no weighting): a relative error. -/
theorem C153_bayesian (F : Fp R) {expf : R → R} (hexp : expf 0 = 1) {X : Data R} {D n : ℕ} {words : List (SWord R)}
    (hadm : Admissible X D n words) (_hdiv : NoZeroDivision X n words) (hX : Nonnegative X) {i j t : ℕ}
    (hi : i < words.length) (hj : j < X.length) (ht : t < n) {M : R}
    (hM : IsGreatest {v | ∃ s : Fin words[i].els.length → ℕ, Monotone s ∧ (∀ k, s k ≤ t) ∧
      v = ∏ k : Fin words[i].els.length, monomial X[j] words[i].els[k] (s k)} M) :
    |at3 (F.issSingle expf .bayesian words none X) i j t - M|
      ≤ ((1 + F.u) ^ (words[i].els.map fun el => (el.map Int.natAbs).sum + 2).sum - 1) * M := by
  obtain ⟨hZ, hne, hfit, hp⟩ := admissible_word hadm hi hj
  rw [issSingle_entry F expf .bayesian hadm hi hj]
  have h := ((Fp.totalBayesian_near (F := F) expf hZ hne hfit (zeros words[i].els.length) (weights := zeros n) (by simp)
    hp).2 0 (by omega)).entry ht
  rw [show words[i].els.length - 1 + 0 + 1 = words[i].els.length by omega, List.take_length] at h
  simp only [zeros_getD, neg_zero, mul_zero, mexp_zero F hexp, mul_one, abs_one] at h
  have e : aW (F.mexp expf) (monos X[j] words[i].els) (fun _ => 0) (fun _ => 0) = monos X[j] words[i].els := by
    funext a b
    simp [aW, mexp_zero F hexp]
  have hm : ∀ (el : List ℤ) (s : ℕ), 0 ≤ monomial X[j] el s := fun el s =>
    Finset.prod_nonneg fun d _ => zpow_nonneg (hX _ (List.getElem_mem hj) d s) _
  have e2 : (fun a b => |monos X[j] words[i].els a b|) = monos X[j] words[i].els := by
    funext a b; exact abs_of_nonneg (hm _ _)
  rw [e, e2] at h
  have hMe : M = chainMax (· * ·) 1 (monos X[j] words[i].els) words[i].els.length t := by
    refine hM.unique ?_
    convert chainMax_isGreatest (· * ·) (1 : R) (monos X[j] words[i].els) words[i].els.length n
      (fun a _ s _ x y h => mul_le_mul_of_nonneg_right h (hm _ _)) t ht using 1
    ext v
    constructor
    · rintro ⟨s, h1, h2, rfl⟩
      exact ⟨s, ⟨h1, h2⟩, by
        rw [chainVal_mul, one_mul]
        exact (prod_getD' words[i].els [] rfl (fun el s => monomial X[j] el s) s).symm⟩
    · rintro ⟨s, ⟨h1, h2⟩, rfl⟩
      exact ⟨s, h1, h2, by
        rw [chainVal_mul, one_mul]; exact prod_getD' words[i].els [] rfl (fun el s => monomial X[j] el s) s⟩
  rw [hMe]
  exact h

/-- The factor `(1 + u)^N - 1` is close to `N u`: at most `N u / (1 - N u)`. -/
theorem C153_factor (F : Fp R) (N : ℕ) (h : N * F.u < 1) :
    N * F.u ≤ (1 + F.u) ^ N - 1 ∧ (1 + F.u) ^ N - 1 ≤ N * F.u / (1 - N * F.u) := by
  have hu := F.u_nonneg
  constructor
  · have := one_add_mul_le_pow (a := F.u) (by linarith) N
    linarith
  · have h1 : (1 + F.u) ^ N * (1 - N * F.u) ≤ 1 := by
      clear h
      induction N with
      | zero => simp
      | succ N ih =>
        have h2 : (1 + F.u) * (1 - (N + 1 : ℕ) * F.u) ≤ 1 - N * F.u := by
          have h3 := mul_nonneg (Nat.cast_nonneg (α := R) (N + 1)) (mul_nonneg hu hu)
          have e : (1 + F.u) * (1 - (N + 1 : ℕ) * F.u) = 1 - N * F.u - (N + 1 : ℕ) * (F.u * F.u) := by
            push_cast; ring
          rw [e]; linarith
        calc (1 + F.u) ^ (N + 1) * (1 - (N + 1 : ℕ) * F.u)
            = (1 + F.u) ^ N * ((1 + F.u) * (1 - (N + 1 : ℕ) * F.u)) := by rw [pow_succ]; ring
          _ ≤ (1 + F.u) ^ N * (1 - N * F.u) := mul_le_mul_of_nonneg_left h2 (by positivity)
          _ ≤ 1 := ih
    have h0 : 0 < 1 - N * F.u := by linarith
    rw [le_div_iff₀ h0]
    nlinarith

/-! ### a concrete case: three significant bits, `X = [[[1/3, 5/7, 3, 1/5]]]`, the word `[1][1][11]` -/

namespace RoundedExample

/-- `[1][1][11]`. -/
def w : SWord ℚ := ⟨[[1], [1], [2]], 1, "[1][1][11]".toList, none⟩
/-- One series of dimension one. -/
def X : Data ℚ := [[[1/3, 5/7, 3, 1/5]]]

theorem adm : Admissible X 1 4 [w] where
  data := by simp [IsData, X, Rect]
  dims := by omega
  nonempty := by simp
  letters := by simp [w]
  fits := by simp [w]

theorem nodiv : NoZeroDivision X 4 [w] := by
  intro v hv el hel d hd h
  simp only [List.mem_singleton] at hv
  subst hv
  simp only [w, List.mem_cons, List.not_mem_nil, or_false] at hel
  rcases hel with rfl | rfl | rfl <;>
  · simp only [List.length_singleton, Nat.lt_one_iff] at hd
    subst hd
    exact absurd h (by decide)

theorem nonneg : Nonnegative X := by
  intro Z hZ d t
  simp only [X, List.mem_singleton] at hZ
  subst hZ
  rcases d with _ | d
  · rcases t with _ | _ | _ | _ | t <;> simp [entry] <;> norm_num
  · simp [entry]

/-- The rounded result is `[0, 0, 2, 2]`, the exact one `[0, 0, 15/7, 1196/525]`. -/
example : (Fp.binary 2 : Fp ℚ).issSingle (fun _ => 1) .reals [w] none X ≠ (Fp.exact : Fp ℚ).issSingle (fun _ => 1) .reals [w] none X := by
  decide +kernel

example : |at3 ((Fp.binary 2 : Fp ℚ).issSingle (fun _ => 1) .reals [w] none X) 0 0 3
      - ∑ s ∈ incTuples 3 4, ∏ k : Fin 3, monomial X[0] w.els[k] (s k)|
    ≤ ((1 + (Fp.binary 2 : Fp ℚ).u) ^ 22 - 1)
      * ∑ s ∈ incTuples 3 4, ∏ k : Fin 3, monomial X[0] w.els[k] (s k) :=
  C153_reals_relative (Fp.binary 2) rfl adm nodiv nonneg (i := 0) (j := 0) (t := 3) (by simp) (by simp [X]) (by omega)

end RoundedExample

end Fruits
