import Verif.CosWISS
import Verif.KernelLemmas
import Verif.Props.Prep2
import Mathlib.Data.Nat.Choose.Sum
import Mathlib.Tactic.IntervalCases
import Mathlib.Analysis.SpecialFunctions.Trigonometric.Basic

/-! # CosWISS: the value of one iterated sum (C88, C90)

Specification: `cosSum`, the sum over increasing index tuples of the letters times a power of the cosine of the phase
difference of neighbouring indices. -/

namespace Fruits
set_option linter.unusedSectionVars false
variable {R : Type} [Field R] [LinearOrder R] [FloorRing R] [NpMath R]

/-- The addition theorem of the cosine. -/
class CosLaw (R : Type) [Field R] [NpMath R] : Prop where
  cos_sub : ∀ a b : R, NpMath.cos (a - b) = NpMath.cos a * NpMath.cos b + NpMath.sin a * NpMath.sin b

noncomputable instance : CosLaw ℝ := ⟨fun a b => Real.cos_sub a b⟩

/-- `cos(pi * (b - a) / (f * (N - 1))) ** s`. -/
def cosWeight (pi f : R) (n s a b : ℕ) : R :=
  NpMath.cos (pi * ((b : R) - (a : R)) / (f * ((n : R) - 1))) ^ s

/-- The weight of an index tuple at time `t`: the product of the cosine powers over consecutive indices and, if `total`,
also over the last index and `t`. -/
def cosPenalty (pi f : R) (n s : ℕ) (total : Bool) {p : ℕ} (i : Fin p → ℕ) (t : ℕ) : R :=
  ∏ j : Fin p, if (j : ℕ) + 1 < p ∨ total = true then cosWeight pi f n s (i j) (nextIdx i t j) else 1

/-- `∑_{i_1 < … < i_p ≤ t} ∏_j letter_j(i_j) * (cosine weights)`, over the tuples whose `j`-th index is not in
`dropped j`. -/
def cosSum (pi f : R) (n s : ℕ) (total : Bool) (Z : List (List R)) (word : List (List ℤ)) (dropped : ℕ → List ℕ)
    (t : ℕ) : R :=
  ∑ i ∈ (incTuples word.length (t + 1)).filter (fun i => ∀ j : Fin word.length, i j ∉ dropped j),
    (∏ j : Fin word.length, monomial Z (word.getD j []) (i j)) * cosPenalty pi f n s total i t

/-! ### The loop over the letters -/

theorem phases_tab (pi f : R) (n : ℕ) (h : R → R) :
    (phases pi f n).map h = tab n fun t => h (pi * (t : R) / (f * ((n : R) - 1))) := by
  simp [phases, tab, Function.comp_def]

private theorem mul_iter' (n m : ℕ) (f x : ℕ → R) :
    (fun tmp => vmul tmp (tab n x))^[m] (tab n f) = tab n (fun t => f t * x t ^ m) := by
  induction m with
  | zero => simp
  | succ m ih =>
    rw [Function.iterate_succ_apply', ih, vmul_tab]
    apply tab_congr; intro t _; ring

theorem mulTrig_tab (n a b : ℕ) (f S C : ℕ → R) :
    mulTrig (tab n S) (tab n C) a b (tab n f) = tab n fun t => f t * (S t ^ a * C t ^ b) := by
  unfold mulTrig
  rw [mul_iter', mul_iter']
  apply tab_congr; intro t _; ring

theorem zeroAt_tab (n : ℕ) (f : ℕ → R) (idx : List ℕ) :
    zeroAt (tab n f) idx = tab n fun t => if t ∈ idx then 0 else f t := by
  unfold zeroAt
  induction idx generalizing f with
  | nil => simp
  | cons a as ih =>
    rw [List.foldl_cons, set_tab, ih]
    apply tab_congr; intro t _
    by_cases h1 : t ∈ as <;> by_cases h2 : t = a <;> simp [h1, h2]

/-- The summand of the kernel for letter `k` at time `t`. -/
def cosTerm (S C : ℕ → R) (Z : List (List R)) (word : List (List ℤ)) (D : ℕ → List ℕ) (wt : List ℕ) (k t : ℕ) : R :=
  if t ∈ D k then 0
  else monomial Z (word.getD k []) t * (S t ^ wt.getD (2 * k + 1) 0 * C t ^ wt.getD (2 * k + 2) 0)

theorem leakyRow_eq {Z : List (List R)} {n : ℕ} (hZ : Rect Z n) (hne : Z ≠ []) {word : List (List ℤ)}
    (hfit : ∀ el ∈ word, Fits Z el) (S C : ℕ → R) (D : List (List ℕ)) (wt : List ℕ) :
    leakyRow Z word (tab n S) (tab n C) D wt = tab n fun t =>
      incSum (cosTerm S C Z word (D.getD · []) wt) word.length (t + 1)
        * (if wt.length = 2 * word.length + 3
            then S t ^ wt.getD (2 * word.length + 1) 0 * C t ^ wt.getD (2 * word.length + 2) 0 else 1) := by
  set a := cosTerm S C Z word (D.getD · []) wt with ha
  have key := enumFold_inv (fun k el (tmp : List R) =>
      let tmp := if k > 0 then roll1z tmp else tmp
      let tmp := lettersMul Z el tmp
      let tmp := mulTrig (tab n S) (tab n C) (wt.getD (2 * k + 1) 0) (wt.getD (2 * k + 2) 0) tmp
      let tmp := zeroAt tmp (D.getD k [])
      cumsum tmp)
    (fun k tmp => tmp = tab n fun t => incSum a k (t + 1)) 0 word (ones n) (by simp) (by
      intro k hk tmp htmp
      subst htmp
      simp only [Nat.zero_add]
      have hfk := hfit _ (List.getElem_mem hk)
      have h1 : (if k > 0 then roll1z (tab n fun t => incSum a k (t + 1)) else tab n fun t => incSum a k (t + 1))
          = tab n fun t => incSum a k t := by
        rcases Nat.eq_zero_or_pos k with rfl | h0
        · simp
        · rw [if_pos h0, roll1z_tab]
          obtain ⟨m, rfl⟩ : ∃ m, k = m + 1 := ⟨k - 1, by omega⟩
          apply tab_congr; intro t _
          rcases Nat.eq_zero_or_pos t with rfl | ht
          · rw [if_pos rfl, incSum_succ]; simp
          · rw [if_neg ht.ne', show t - 1 + 1 = t by omega]
      rw [h1, lettersMul_tab hZ hfk, mulTrig_tab, zeroAt_tab, cumsum_tab]
      apply tab_congr; intro t _
      rw [incSum_succ]
      apply Finset.sum_congr rfl
      intro u _
      have hg : word.getD k [] = word[k] := by simp [List.getD_eq_getElem?_getD, hk]
      simp only [ha, cosTerm, hg]
      split
      · simp
      · ring)
  unfold leakyRow
  rw [ncols_eq hZ hne]
  rw [Nat.zero_add] at key
  simp only at key ⊢
  rw [key]
  split
  · rw [mulTrig_tab]
  · simp

theorem cosRow_eq_leaky (Z : List (List R)) (word : List (List ℤ)) (sinW cosW : List R) (wt : List ℕ) :
    cosRow Z word sinW cosW wt = leakyRow Z word sinW cosW [] wt := by
  simp [cosRow, leakyRow, zeroAt]

theorem coswissSingle_eq_leaky (pi : R) (Z : List (List R)) (word : List (List ℤ)) (f : R) (wts : List (List ℕ)) :
    coswissSingle pi Z word f wts = leakyCoswissSingle pi Z word f wts [] := by
  simp only [coswissSingle, leakyCoswissSingle, cosRow_eq_leaky]

private theorem foldl_vadd {α : Type*} (n : ℕ) (g : α → ℕ → R) (h : α → List R) (l : List α)
    (hh : ∀ a ∈ l, h a = tab n (g a)) (f : ℕ → R) :
    l.foldl (fun r a => vadd r (h a)) (tab n f) = tab n fun t => f t + (l.map fun a => g a t).sum := by
  induction l generalizing f with
  | nil => simp
  | cons a as ih =>
    rw [List.foldl_cons, hh a (by simp), vadd_tab, ih (fun b hb => hh b (by simp [hb]))]
    apply tab_congr; intro t _
    simp [add_assoc]

theorem leakyCoswissSingle_eq (pi f : R) {Z : List (List R)} {n : ℕ} (hZ : Rect Z n) (hne : Z ≠ [])
    {word : List (List ℤ)} (hfit : ∀ el ∈ word, Fits Z el) (wts : List (List ℕ)) (D : List (List ℕ)) :
    leakyCoswissSingle pi Z word f wts D = tab n fun t => (wts.map fun wt =>
      ((wt.getD 0 0 : ℕ) : R) *
      (incSum (cosTerm (fun t => NpMath.sin (pi * (t : R) / (f * ((n : R) - 1))))
          (fun t => NpMath.cos (pi * (t : R) / (f * ((n : R) - 1)))) Z word (D.getD · []) wt) word.length (t + 1)
        * (if wt.length = 2 * word.length + 3
            then NpMath.sin (pi * (t : R) / (f * ((n : R) - 1))) ^ wt.getD (2 * word.length + 1) 0
              * NpMath.cos (pi * (t : R) / (f * ((n : R) - 1))) ^ wt.getD (2 * word.length + 2) 0 else 1))).sum := by
  unfold leakyCoswissSingle
  rw [ncols_eq hZ hne, phases_tab, phases_tab, zeros_eq]
  simp only
  rw [foldl_vadd n (fun wt t => ((wt.getD 0 0 : ℕ) : R) *
      (incSum (cosTerm (fun t => NpMath.sin (pi * (t : R) / (f * ((n : R) - 1))))
          (fun t => NpMath.cos (pi * (t : R) / (f * ((n : R) - 1)))) Z word (D.getD · []) wt) word.length (t + 1)
        * (if wt.length = 2 * word.length + 3
            then NpMath.sin (pi * (t : R) / (f * ((n : R) - 1))) ^ wt.getD (2 * word.length + 1) 0
              * NpMath.cos (pi * (t : R) / (f * ((n : R) - 1))) ^ wt.getD (2 * word.length + 2) 0 else 1)))]
  · apply tab_congr; intro t _; rw [zero_add]
  · intro wt _
    rw [leakyRow_eq hZ hne hfit, map_tab]

/-! ### The rows of `_get_weightings` -/

/-- The exponent at position `k`: from the factor before and from the factor after it. -/
def posExp (a : ℕ → ℕ) (m k : ℕ) : ℕ :=
  (if 1 ≤ k ∧ k ≤ m then a (k - 1) else 0) + (if k < m then a k else 0)

private theorem getD_modify {α : Type*} (l : List α) (i j : ℕ) (f : α → α) (d : α) :
    (l.modify i f).getD j d = if i = j ∧ j < l.length then f (l.getD j d) else l.getD j d := by
  rw [List.getD_eq_getElem?_getD, List.getElem?_modify, List.getD_eq_getElem?_getD]
  by_cases hj : j < l.length
  · simp only [List.getElem?_eq_getElem hj, Option.map_eq_map, Option.map_some, Option.getD_some, hj, and_true]
  · simp [hj, List.getElem?_eq_none (not_lt.1 hj)]

theorem weightRow_eq (comb : List PStr) :
    let row := enumFold weightStep 0 comb (1 :: List.replicate (2 * (comb.length + 1)) 0)
    row.length = 2 * comb.length + 3 ∧
    row.getD 0 0 = ∏ i ∈ Finset.range comb.length, charInt (comb.getD i []) 0 ∧
    (∀ k ≤ comb.length, row.getD (2 * k + 1) 0 = posExp (fun i => charInt (comb.getD i []) 1) comb.length k) ∧
    (∀ k ≤ comb.length, row.getD (2 * k + 2) 0 = posExp (fun i => charInt (comb.getD i []) 2) comb.length k) := by
  have := enumFold_inv weightStep (fun m row =>
    row.length = 2 * comb.length + 3 ∧
    row.getD 0 0 = ∏ i ∈ Finset.range m, charInt (comb.getD i []) 0 ∧
    (∀ k ≤ comb.length, row.getD (2 * k + 1) 0 = posExp (fun i => charInt (comb.getD i []) 1) m k) ∧
    (∀ k ≤ comb.length, row.getD (2 * k + 2) 0 = posExp (fun i => charInt (comb.getD i []) 2) m k)) 0 comb
    (1 :: List.replicate (2 * (comb.length + 1)) 0) (by
      refine ⟨by simp; omega, by simp, ?_, ?_⟩
      · intro k hk
        have h0 : posExp (fun i => charInt (comb.getD i []) 1) 0 k = 0 := by
          unfold posExp; rw [if_neg (by omega), if_neg (by omega)]
        rw [h0]
        simp only [List.getD_eq_getElem?_getD, List.getElem?_cons_succ, List.getElem?_replicate]
        split <;> rfl
      · intro k hk
        have h0 : posExp (fun i => charInt (comb.getD i []) 2) 0 k = 0 := by
          unfold posExp; rw [if_neg (by omega), if_neg (by omega)]
        rw [h0]
        simp only [List.getD_eq_getElem?_getD, List.getElem?_cons_succ, List.getElem?_replicate]
        split <;> rfl) (by
      intro m hm row ⟨hl, h0, h1, h2⟩
      rw [Nat.zero_add] at *
      have hg : comb.getD m [] = comb[m] := by simp [List.getD_eq_getElem?_getD, hm]
      refine ⟨by simp [weightStep, hl], ?_, ?_, ?_⟩
      · simp only [weightStep, getD_modify, List.length_modify, hl]
        rw [Finset.prod_range_succ, ← h0, hg]
        simp
      · intro k hk
        simp only [weightStep, getD_modify, List.length_modify, hl]
        rw [h1 k hk]
        rw [← hg]
        unfold posExp
        rcases Nat.lt_trichotomy k m with hkm | rfl | hkm
        · rw [if_neg (by omega), if_neg (by omega), if_neg (by omega), if_neg (by omega), if_neg (by omega)]
          rw [if_pos hkm, if_pos (by omega : k < m + 1)]
          congr 1
          by_cases h : 1 ≤ k
          · rw [if_pos ⟨h, by omega⟩, if_pos ⟨h, by omega⟩]
          · rw [if_neg (by omega), if_neg (by omega)]
        · rw [if_neg (by omega), if_neg (by omega), if_neg (by omega), if_pos ⟨rfl, by omega⟩, if_neg (by omega)]
          rw [if_neg (lt_irrefl _), if_pos (by omega : k < k + 1)]
          rw [add_zero]
          congr 1
          by_cases h : 1 ≤ k
          · rw [if_pos ⟨h, by omega⟩, if_pos ⟨h, by omega⟩]
          · rw [if_neg (by omega), if_neg (by omega)]
        · rcases Nat.lt_or_ge (m + 1) k with hk2 | hk2
          · rw [if_neg (by omega), if_neg (by omega), if_neg (by omega), if_neg (by omega), if_neg (by omega)]
            rw [if_neg (by omega), if_neg (by omega), if_neg (by omega), if_neg (by omega)]
          · obtain rfl : k = m + 1 := by omega
            rw [if_neg (by omega), if_neg (by omega), if_pos ⟨by omega, by omega⟩, if_neg (by omega), if_neg (by omega)]
            rw [if_neg (by omega), if_neg (by omega), if_pos ⟨by omega, le_rfl⟩, if_neg (by omega)]
            simp
      · intro k hk
        simp only [weightStep, getD_modify, List.length_modify, hl]
        rw [h2 k hk]
        rw [← hg]
        unfold posExp
        rcases Nat.lt_trichotomy k m with hkm | rfl | hkm
        · rw [if_neg (by omega), if_neg (by omega), if_neg (by omega), if_neg (by omega), if_neg (by omega)]
          rw [if_pos hkm, if_pos (by omega : k < m + 1)]
          congr 1
          by_cases h : 1 ≤ k
          · rw [if_pos ⟨h, by omega⟩, if_pos ⟨h, by omega⟩]
          · rw [if_neg (by omega), if_neg (by omega)]
        · rw [if_neg (by omega), if_pos ⟨rfl, by omega⟩, if_neg (by omega), if_neg (by omega), if_neg (by omega)]
          rw [if_neg (lt_irrefl _), if_pos (by omega : k < k + 1)]
          rw [add_zero]
          congr 1
          by_cases h : 1 ≤ k
          · rw [if_pos ⟨h, by omega⟩, if_pos ⟨h, by omega⟩]
          · rw [if_neg (by omega), if_neg (by omega)]
        · rcases Nat.lt_or_ge (m + 1) k with hk2 | hk2
          · rw [if_neg (by omega), if_neg (by omega), if_neg (by omega), if_neg (by omega), if_neg (by omega)]
            rw [if_neg (by omega), if_neg (by omega), if_neg (by omega), if_neg (by omega)]
          · obtain rfl : k = m + 1 := by omega
            rw [if_pos ⟨by omega, by omega⟩, if_neg (by omega), if_neg (by omega), if_neg (by omega), if_neg (by omega)]
            rw [if_neg (by omega), if_neg (by omega), if_pos ⟨by omega, le_rfl⟩, if_neg (by omega)]
            simp)
  rw [Nat.zero_add] at this
  exact this

/-- The product of the powers over the positions is the product over the pairs of neighbouring positions. -/
theorem prod_posExp (a : ℕ → ℕ) (q : ℕ) (v : ℕ → R) :
    ∏ k ∈ Finset.range (q + 1), v k ^ posExp a q k = ∏ j ∈ Finset.range q, (v j * v (j + 1)) ^ a j := by
  have h1 : ∀ k ∈ Finset.range (q + 1), v k ^ posExp a q k
      = (if 1 ≤ k ∧ k ≤ q then v k ^ a (k - 1) else 1) * (if k < q then v k ^ a k else 1) := by
    intro k _
    unfold posExp
    rw [pow_add]
    congr 1 <;> split <;> simp
  rw [Finset.prod_congr rfl h1, Finset.prod_mul_distrib, Finset.prod_range_succ',
    Finset.prod_range_succ (fun k => if k < q then v k ^ a k else 1)]
  simp only [show ¬ (1 ≤ 0 ∧ 0 ≤ q) by omega, if_false, mul_one, lt_irrefl]
  rw [← Finset.prod_mul_distrib]
  apply Finset.prod_congr rfl
  intro j hj
  have hj := Finset.mem_range.1 hj
  rw [if_pos ⟨by omega, by omega⟩, if_pos hj, Nat.add_sub_cancel, mul_pow, mul_comm]

/-! ### Sums over `itertools.product` -/

theorem productRepeat_length {α : Type} (ids : List α) (q : ℕ) : ∀ c ∈ productRepeat ids q, c.length = q := by
  induction q with
  | zero => intro c hc; simp [productRepeat] at hc; simp [hc]
  | succ q ih =>
    intro c hc
    simp only [productRepeat, List.mem_flatMap, List.mem_map] at hc
    obtain ⟨a, _, c', hc', rfl⟩ := hc
    simp [ih c' hc']

theorem sum_productRepeat {α : Type} (ids : List α) (d : α) (q : ℕ) (F : ℕ → α → R) :
    ((productRepeat ids q).map fun c => ∏ j ∈ Finset.range q, F j (c.getD j d)).sum
      = ∏ j ∈ Finset.range q, (ids.map (F j)).sum := by
  induction q generalizing F with
  | zero => simp [productRepeat]
  | succ q ih =>
    simp only [productRepeat, List.map_flatMap, List.map_map, Function.comp_def]
    rw [Finset.prod_range_succ', mul_comm]
    rw [← ih (fun j => F (j + 1))]
    have : ∀ l : List α, (l.flatMap fun a => (productRepeat ids q).map fun c =>
        ∏ j ∈ Finset.range (q + 1), F j ((a :: c).getD j d)).sum
        = (l.map (F 0)).sum * ((productRepeat ids q).map fun c =>
            ∏ j ∈ Finset.range q, F (j + 1) (c.getD j d)).sum := by
      intro l
      induction l with
      | nil => simp
      | cons a as iha =>
        rw [List.flatMap_cons, List.sum_append, iha, List.map_cons, List.sum_cons, add_mul]
        congr 1
        rw [← List.sum_map_mul_left]
        congr 1
        apply List.map_congr_left
        intro c _
        rw [Finset.prod_range_succ', mul_comm]
        simp
    exact this ids

/-- For exponents up to `4` the strings of `trig_id` hold the binomial expansion. -/
theorem trigIds_decode {s : ℕ} (hs : s ≤ 4) :
    (trigIds s).map (fun id => (charInt id 0, charInt id 1, charInt id 2))
      = (List.range (s + 1)).map fun k => (Nat.choose s k, s - k, k) := by
  interval_cases s <;> decide +kernel

theorem sum_map_range (m : ℕ) (f : ℕ → R) : ((List.range m).map f).sum = ∑ k ∈ Finset.range m, f k := rfl

theorem trig_expand {s : ℕ} (hs : s ≤ 4) (x y : R) :
    ((trigIds s).map fun id => ((charInt id 0 : ℕ) : R) * (x ^ charInt id 1 * y ^ charInt id 2)).sum = (x + y) ^ s := by
  have h : ((trigIds s).map fun id => ((charInt id 0 : ℕ) : R) * (x ^ charInt id 1 * y ^ charInt id 2))
      = ((trigIds s).map (fun id => (charInt id 0, charInt id 1, charInt id 2))).map
          fun c : ℕ × ℕ × ℕ => (c.1 : R) * (x ^ c.2.1 * y ^ c.2.2) := by
    rw [List.map_map]; rfl
  rw [h, trigIds_decode hs, List.map_map, add_comm x y, add_pow]
  rw [sum_map_range]
  apply Finset.sum_congr rfl
  intro k _
  simp only [Function.comp]
  ring

/-! ### Putting it together -/

/-- The index tuple followed by the time `t`. -/
def extIdx {p : ℕ} (i : Fin p → ℕ) (t k : ℕ) : ℕ := if h : k < p then i ⟨k, h⟩ else t

/-- Number of cosine factors. -/
def cosPairs (total : Bool) (p : ℕ) : ℕ := if total then p else p - 1

theorem cosPenalty_eq (pi f : R) (n s : ℕ) (total : Bool) {p : ℕ} (i : Fin p → ℕ) (t : ℕ) :
    cosPenalty pi f n s total i t = ∏ j ∈ Finset.range (cosPairs total p),
      cosWeight pi f n s (extIdx i t j) (extIdx i t (j + 1)) := by
  have hx : ∀ j : Fin p, nextIdx i t j = extIdx i t (j + 1) := fun j => rfl
  have hy : ∀ j : Fin p, i j = extIdx i t j := fun j => by simp [extIdx]
  have : cosPenalty pi f n s total i t = ∏ j ∈ Finset.range p, if j + 1 < p ∨ total = true then
      cosWeight pi f n s (extIdx i t j) (extIdx i t (j + 1)) else 1 := by
    rw [Finset.prod_range]
    unfold cosPenalty
    apply Finset.prod_congr rfl
    intro j _
    rw [hx, hy]
  rw [this]
  cases total with
  | true => simp [cosPairs]
  | false =>
    cases p with
    | zero => simp [cosPairs]
    | succ p =>
      rw [Finset.prod_range_succ]
      simp only [cosPairs, Bool.false_eq_true, or_false, if_false, lt_irrefl, mul_one, Nat.add_sub_cancel]
      apply Finset.prod_congr rfl
      intro j hj
      rw [if_pos (by have := Finset.mem_range.1 hj; omega)]

theorem cosWeight_eq [CosLaw R] (pi f : R) (n s a b : ℕ) :
    cosWeight pi f n s a b =
      (NpMath.sin (pi * (a : R) / (f * ((n : R) - 1))) * NpMath.sin (pi * (b : R) / (f * ((n : R) - 1)))
      + NpMath.cos (pi * (a : R) / (f * ((n : R) - 1))) * NpMath.cos (pi * (b : R) / (f * ((n : R) - 1)))) ^ s := by
  unfold cosWeight
  rw [mul_sub, sub_div, CosLaw.cos_sub]
  congr 1
  ring

/-- What the code uses in place of `(x + y) ^ s`: three characters of every string of `trig_id`. -/
def trigPoly (s : ℕ) (x y : R) : R :=
  ((trigIds s).map fun id => ((charInt id 0 : ℕ) : R) * (x ^ charInt id 1 * y ^ charInt id 2)).sum

/-- The result for any exponent. -/
theorem leaky_general (pi f : R) (s : ℕ) (total : Bool) {Z : List (List R)} {n : ℕ}
    (hZ : Rect Z n) (hne : Z ≠ []) {word : List (List ℤ)} (hw : word ≠ []) (hfit : ∀ el ∈ word, Fits Z el)
    (D : List (List ℕ)) :
    leakyCoswissSingle pi Z word f (getWeightings s total word.length) D
      = tab n fun t => ∑ i ∈ incTuples word.length (t + 1),
        (∏ j : Fin word.length, if i j ∈ D.getD j [] then 0 else monomial Z (word.getD j []) (i j)) *
        ∏ j ∈ Finset.range (cosPairs total word.length), trigPoly s
          (NpMath.sin (pi * (extIdx i t j : R) / (f * ((n : R) - 1))) * NpMath.sin (pi * (extIdx i t (j + 1) : R) / (f * ((n : R) - 1))))
          (NpMath.cos (pi * (extIdx i t j : R) / (f * ((n : R) - 1))) * NpMath.cos (pi * (extIdx i t (j + 1) : R) / (f * ((n : R) - 1)))) := by
  rw [leakyCoswissSingle_eq pi f hZ hne hfit]
  apply tab_congr; intro t _
  set S : ℕ → R := fun t => NpMath.sin (pi * (t : R) / (f * ((n : R) - 1))) with hS
  set C : ℕ → R := fun t => NpMath.cos (pi * (t : R) / (f * ((n : R) - 1))) with hC
  set p := word.length with hp
  set q := cosPairs total p with hq
  have hp0 : 0 < p := List.length_pos_iff.2 hw
  have hpq : (if total then p + 1 else p) = q + 1 := by
    cases total <;> simp [hq, cosPairs]
    omega
  have hwts : getWeightings s total p = (productRepeat (trigIds s) q).map fun comb =>
      enumFold weightStep 0 comb (1 :: List.replicate (2 * (q + 1)) 0) := by
    unfold getWeightings
    simp only [hpq, Nat.add_sub_cancel]
  rw [hwts, List.map_map]
  -- the summand of one combination and one tuple
  let M : (Fin p → ℕ) → R := fun i =>
    ∏ j : Fin p, if i j ∈ D.getD j [] then 0 else monomial Z (word.getD j []) (i j)
  let G : (Fin p → ℕ) → ℕ → PStr → R := fun i j id => ((charInt id 0 : ℕ) : R) *
    ((S (extIdx i t j) * S (extIdx i t (j + 1))) ^ charInt id 1
      * (C (extIdx i t j) * C (extIdx i t (j + 1))) ^ charInt id 2)
  have hterm : ∀ comb ∈ productRepeat (trigIds s) q,
      ((fun wt : List ℕ => ((wt.getD 0 0 : ℕ) : R) * (incSum (cosTerm S C Z word (D.getD · []) wt) p (t + 1)
        * (if wt.length = 2 * p + 3 then S t ^ wt.getD (2 * p + 1) 0 * C t ^ wt.getD (2 * p + 2) 0 else 1)))
        ∘ fun comb => enumFold weightStep 0 comb (1 :: List.replicate (2 * (q + 1)) 0)) comb
      = ∑ i ∈ incTuples p (t + 1), M i * ∏ j ∈ Finset.range q, G i j (comb.getD j []) := by
    intro comb hcomb
    have hl := productRepeat_length _ _ comb hcomb
    obtain ⟨r0, r1, r2, r3⟩ := weightRow_eq comb
    rw [hl] at r0 r1 r2 r3
    simp only [Function.comp]
    set wt := enumFold weightStep 0 comb (1 :: List.replicate (2 * (q + 1)) 0) with hwt
    rw [r1, Nat.cast_prod]
    unfold incSum
    rw [Finset.sum_mul, Finset.mul_sum]
    apply Finset.sum_congr rfl
    intro i _
    have hG : ∏ j ∈ Finset.range q, G i j (comb.getD j [])
        = (∏ j ∈ Finset.range q, ((charInt (comb.getD j []) 0 : ℕ) : R)) *
          ((∏ k ∈ Finset.range (q + 1), S (extIdx i t k) ^ wt.getD (2 * k + 1) 0)
          * (∏ k ∈ Finset.range (q + 1), C (extIdx i t k) ^ wt.getD (2 * k + 2) 0)) := by
      have e1 : ∏ k ∈ Finset.range (q + 1), S (extIdx i t k) ^ wt.getD (2 * k + 1) 0
          = ∏ j ∈ Finset.range q, (S (extIdx i t j) * S (extIdx i t (j + 1))) ^ charInt (comb.getD j []) 1 := by
        rw [← prod_posExp (fun j => charInt (comb.getD j []) 1) q (fun k => S (extIdx i t k))]
        apply Finset.prod_congr rfl
        intro k hk
        rw [r2 k (by have := Finset.mem_range.1 hk; omega)]
      have e2 : ∏ k ∈ Finset.range (q + 1), C (extIdx i t k) ^ wt.getD (2 * k + 2) 0
          = ∏ j ∈ Finset.range q, (C (extIdx i t j) * C (extIdx i t (j + 1))) ^ charInt (comb.getD j []) 2 := by
        rw [← prod_posExp (fun j => charInt (comb.getD j []) 2) q (fun k => C (extIdx i t k))]
        apply Finset.prod_congr rfl
        intro k hk
        rw [r3 k (by have := Finset.mem_range.1 hk; omega)]
      rw [e1, e2, ← Finset.prod_mul_distrib, ← Finset.prod_mul_distrib]
    rw [hG]
    have hT : ∏ j : Fin p, cosTerm S C Z word (D.getD · []) wt j (i j)
        = M i * ((∏ k ∈ Finset.range p, S (extIdx i t k) ^ wt.getD (2 * k + 1) 0)
          * (∏ k ∈ Finset.range p, C (extIdx i t k) ^ wt.getD (2 * k + 2) 0)) := by
      rw [Finset.prod_range, Finset.prod_range, ← Finset.prod_mul_distrib, ← Finset.prod_mul_distrib]
      apply Finset.prod_congr rfl
      intro j _
      have hy : extIdx i t j = i j := by simp [extIdx]
      rw [hy]
      unfold cosTerm
      split <;> simp
    rw [hT]
    have hfin : (∏ k ∈ Finset.range (q + 1), S (extIdx i t k) ^ wt.getD (2 * k + 1) 0)
          * (∏ k ∈ Finset.range (q + 1), C (extIdx i t k) ^ wt.getD (2 * k + 2) 0)
        = ((∏ k ∈ Finset.range p, S (extIdx i t k) ^ wt.getD (2 * k + 1) 0)
          * (∏ k ∈ Finset.range p, C (extIdx i t k) ^ wt.getD (2 * k + 2) 0))
          * (if wt.length = 2 * p + 3 then S t ^ wt.getD (2 * p + 1) 0 * C t ^ wt.getD (2 * p + 2) 0 else 1) := by
      cases total with
      | true =>
        have hqp : q = p := by simp [hq, cosPairs]
        rw [if_pos (by rw [r0, hqp]), hqp, Finset.prod_range_succ, Finset.prod_range_succ]
        have hy : extIdx i t p = t := by simp [extIdx]
        rw [hy]
        ring
      | false =>
        have hqp : q + 1 = p := by simpa using hpq.symm
        rw [if_neg (by rw [r0]; omega), hqp, mul_one]
    rw [hfin]
    ring
  rw [List.map_congr_left hterm]
  rw [show ((productRepeat (trigIds s) q).map fun comb => ∑ i ∈ incTuples p (t + 1),
      M i * ∏ j ∈ Finset.range q, G i j (comb.getD j [])).sum
      = ∑ i ∈ incTuples p (t + 1), M i * ((productRepeat (trigIds s) q).map fun comb =>
        ∏ j ∈ Finset.range q, G i j (comb.getD j [])).sum from ?_]
  · apply Finset.sum_congr rfl
    intro i _
    rw [sum_productRepeat (trigIds s) [] q (G i)]
    rfl
  · generalize productRepeat (trigIds s) q = l
    induction l with
    | nil => simp
    | cons a as ih =>
      simp only [List.map_cons, List.sum_cons, mul_add, Finset.sum_add_distrib]
      rw [ih]

theorem leaky_main [CosLaw R] (pi f : R) {s : ℕ} (hs : s ≤ 4) (total : Bool) {Z : List (List R)} {n : ℕ}
    (hZ : Rect Z n) (hne : Z ≠ []) {word : List (List ℤ)} (hw : word ≠ []) (hfit : ∀ el ∈ word, Fits Z el)
    (D : List (List ℕ)) :
    leakyCoswissSingle pi Z word f (getWeightings s total word.length) D
      = tab n (cosSum pi f n s total Z word (D.getD · [])) := by
  rw [leaky_general pi f s total hZ hne hw hfit]
  apply tab_congr; intro t _
  unfold cosSum
  rw [Finset.sum_filter]
  apply Finset.sum_congr rfl
  intro i _
  have hprod : (∏ j ∈ Finset.range (cosPairs total word.length), trigPoly s
          (NpMath.sin (pi * (extIdx i t j : R) / (f * ((n : R) - 1))) * NpMath.sin (pi * (extIdx i t (j + 1) : R) / (f * ((n : R) - 1))))
          (NpMath.cos (pi * (extIdx i t j : R) / (f * ((n : R) - 1))) * NpMath.cos (pi * (extIdx i t (j + 1) : R) / (f * ((n : R) - 1)))))
      = cosPenalty pi f n s total i t := by
    rw [cosPenalty_eq]
    apply Finset.prod_congr rfl
    intro j _
    rw [cosWeight_eq]
    exact trig_expand hs _ _
  rw [hprod]
  split
  · next h =>
    congr 1
    apply Finset.prod_congr rfl
    intro j _
    rw [if_neg (h j)]
  · next h =>
    push Not at h
    obtain ⟨j, hj⟩ := h
    have h0 : (∏ j : Fin word.length, if i j ∈ D.getD j [] then (0 : R) else monomial Z (word.getD j []) (i j)) = 0 :=
      Finset.prod_eq_zero (Finset.mem_univ j) (if_pos hj)
    rw [h0, zero_mul]

end Fruits
