import Verif.Rounded
import Verif.KernelLemmas
import Mathlib.Algebra.Order.Group.MinMax

/-! # Error analysis of the rounded kernels -/

namespace Fruits
set_option linter.unusedSectionVars false
variable {R : Type} [Field R] [LinearOrder R] [IsStrictOrderedRing R]

/-! ### one number -/

theorem Fp.zero (F : Fp R) : F.rnd 0 = 0 := by
  have := F.err 0
  simpa using this

/-- The error factor `(1 + u)^k - 1` after `k` rounded operations. -/
def Fp.gam (F : Fp R) (k : ℕ) : R := (1 + F.u) ^ k - 1

theorem Fp.gam_nonneg (F : Fp R) (k : ℕ) : 0 ≤ F.gam k :=
  sub_nonneg.2 (one_le_pow₀ (by linarith [F.u_nonneg]))

theorem Fp.gam_mono (F : Fp R) {k l : ℕ} (h : k ≤ l) : F.gam k ≤ F.gam l :=
  sub_le_sub_right (pow_le_pow_right₀ (by linarith [F.u_nonneg]) h) _

theorem Fp.gam_succ (F : Fp R) (k : ℕ) : F.gam (k + 1) = F.gam k + F.u * (1 + F.gam k) := by
  simp only [Fp.gam, pow_succ]; ring

/-- `x` approximates `a` with the relative error of `k` operations, relative to `A ≥ |a|`. -/
structure Near (F : Fp R) (k : ℕ) (a A x : R) : Prop where
  bound : |a| ≤ A
  err : |x - a| ≤ F.gam k * A

variable {F : Fp R}

theorem Near.nonneg {k : ℕ} {a A x : R} (h : Near F k a A x) : 0 ≤ A := (abs_nonneg a).trans h.bound

theorem Near.abs_le {k : ℕ} {a A x : R} (h : Near F k a A x) : |x| ≤ (1 + F.gam k) * A := by
  have h1 := abs_add_le (x - a) a
  rw [sub_add_cancel] at h1
  have := h.bound; have := h.err
  linarith

theorem Near.mono {k l : ℕ} {a A x : R} (h : Near F k a A x) (hl : k ≤ l) : Near F l a A x :=
  ⟨h.bound, h.err.trans (mul_le_mul_of_nonneg_right (F.gam_mono hl) h.nonneg)⟩

theorem Near.refl (k : ℕ) (a : R) : Near F k a |a| a :=
  ⟨le_rfl, by simpa using mul_nonneg (F.gam_nonneg k) (abs_nonneg a)⟩

theorem Near.of_eq {k : ℕ} {a A x b B : R} (h : Near F k a A x) (h1 : a = b) (h2 : A = B) : Near F k b B x := by
  subst h1; subst h2; exact h

/-- One rounding more. -/
theorem Near.rnd {k : ℕ} {a A x : R} (h : Near F k a A x) : Near F (k + 1) a A (F.rnd x) := by
  refine ⟨h.bound, ?_⟩
  have h1 := abs_add_le (F.rnd x - x) (x - a)
  rw [sub_add_sub_cancel] at h1
  have h2 := F.err x
  have h3 := mul_le_mul_of_nonneg_left h.abs_le F.u_nonneg
  have h4 := h.err
  rw [F.gam_succ]
  nlinarith [h1, h2, h3, h4]

/-- A product with an exact factor, before rounding. -/
theorem Near.mul_const {k : ℕ} {a A x : R} (h : Near F k a A x) (y : R) : Near F k (a * y) (A * |y|) (x * y) := by
  refine ⟨?_, ?_⟩
  · rw [abs_mul]; exact mul_le_mul_of_nonneg_right h.bound (abs_nonneg y)
  · rw [← sub_mul, abs_mul, ← mul_assoc]; exact mul_le_mul_of_nonneg_right h.err (abs_nonneg y)

theorem Near.div_const {k : ℕ} {a A x : R} (h : Near F k a A x) (y : R) :
    Near F k (a * y⁻¹) (A * |y⁻¹|) (x / y) := by
  rw [div_eq_mul_inv]; exact h.mul_const _

theorem Near.add {k : ℕ} {a A x b B y : R} (h : Near F k a A x) (h' : Near F k b B y) :
    Near F k (a + b) (A + B) (x + y) := by
  refine ⟨(abs_add_le a b).trans (add_le_add h.bound h'.bound), ?_⟩
  have := abs_add_le (x - a) (y - b)
  rw [show x + y - (a + b) = (x - a) + (y - b) by ring, mul_add]
  exact this.trans (add_le_add h.err h'.err)

theorem Near.neg {k : ℕ} {a A x : R} (h : Near F k a A x) : Near F k (-a) A (-x) :=
  ⟨by rw [abs_neg]; exact h.bound, by rw [neg_sub_neg, abs_sub_comm]; exact h.err⟩

theorem Near.sub {k : ℕ} {a A x b B y : R} (h : Near F k a A x) (h' : Near F k b B y) :
    Near F k (a - b) (A + B) (x - y) := by
  rw [sub_eq_add_neg, sub_eq_add_neg]; exact h.add h'.neg

theorem Near.max {k : ℕ} {a A x b B y : R} (h : Near F k a A x) (h' : Near F k b B y) :
    Near F k (max a b) (max A B) (max x y) := by
  refine ⟨?_, ?_⟩
  · rcases max_choice a b with e | e <;> rw [e]
    · exact h.bound.trans (le_max_left _ _)
    · exact h'.bound.trans (le_max_right _ _)
  · refine (abs_max_sub_max_le_max x y a b).trans ?_
    rw [mul_max_of_nonneg _ _ (F.gam_nonneg k)]
    exact max_le_max h.err h'.err

/-! ### arrays -/

/-- `tmp` has length `n` and its entries approximate `a t`. -/
def NearV (F : Fp R) (n k : ℕ) (a A : ℕ → R) (tmp : List R) : Prop :=
  ∃ x : ℕ → R, tmp = tab n x ∧ ∀ t < n, Near F k (a t) (A t) (x t)

theorem NearV.of_eq {n k l : ℕ} {a A b B : ℕ → R} {tmp : List R} (h : NearV F n k a A tmp) (hk : k ≤ l)
    (h1 : ∀ t < n, a t = b t) (h2 : ∀ t < n, A t = B t) : NearV F n l b B tmp := by
  obtain ⟨x, rfl, hx⟩ := h
  exact ⟨x, rfl, fun t ht => ((hx t ht).of_eq (h1 t ht) (h2 t ht)).mono hk⟩

theorem NearV.vmul {n k : ℕ} {a A : ℕ → R} {tmp : List R} (h : NearV F n k a A tmp) (y : ℕ → R) :
    NearV F n (k + 1) (fun t => a t * y t) (fun t => A t * |y t|) (F.vmul tmp (tab n y)) := by
  obtain ⟨x, rfl, hx⟩ := h
  exact ⟨_, zipWith_tab _ _ _ _, fun t ht => ((hx t ht).mul_const _).rnd⟩

theorem NearV.vdiv {n k : ℕ} {a A : ℕ → R} {tmp : List R} (h : NearV F n k a A tmp) (y : ℕ → R) :
    NearV F n (k + 1) (fun t => a t * (y t)⁻¹) (fun t => A t * |(y t)⁻¹|) (F.vdiv tmp (tab n y)) := by
  obtain ⟨x, rfl, hx⟩ := h
  exact ⟨_, zipWith_tab _ _ _ _, fun t ht => ((hx t ht).div_const _).rnd⟩

theorem NearV.vadd {n k : ℕ} {a A b B : ℕ → R} {tmp v : List R} (h : NearV F n k a A tmp) (h' : NearV F n k b B v) :
    NearV F n (k + 1) (fun t => a t + b t) (fun t => A t + B t) (F.vadd tmp v) := by
  obtain ⟨x, rfl, hx⟩ := h
  obtain ⟨y, rfl, hy⟩ := h'
  exact ⟨_, zipWith_tab _ _ _ _, fun t ht => ((hx t ht).add (hy t ht)).rnd⟩

theorem NearV.vsub {n k : ℕ} {a A b B : ℕ → R} {tmp v : List R} (h : NearV F n k a A tmp) (h' : NearV F n k b B v) :
    NearV F n (k + 1) (fun t => a t - b t) (fun t => A t + B t) (F.vsub tmp v) := by
  obtain ⟨x, rfl, hx⟩ := h
  obtain ⟨y, rfl, hy⟩ := h'
  exact ⟨_, zipWith_tab _ _ _ _, fun t ht => ((hx t ht).sub (hy t ht)).rnd⟩

theorem NearV.roll {n k : ℕ} {a A : ℕ → R} {tmp : List R} (h : NearV F n k a A tmp) :
    NearV F n k (fun t => if t = 0 then 0 else a (t - 1)) (fun t => if t = 0 then 0 else A (t - 1)) (roll1z tmp) := by
  obtain ⟨x, rfl, hx⟩ := h
  refine ⟨_, roll1z_tab _ _, fun t ht => ?_⟩
  dsimp only
  split
  · exact ⟨by simp, by simp⟩
  · exact hx _ (by omega)

/-- The accumulator of the rounded cumulative sum. -/
def Fp.accum (F : Fp R) (f : ℕ → R) : ℕ → R
  | 0 => 0
  | t + 1 => F.rnd (F.accum f t + f t)

theorem Fp.cumsumFrom_tab (F : Fp R) (f : ℕ → R) (n m : ℕ) :
    F.cumsumFrom (F.accum f m) (tab n fun t => f (m + t)) = tab n fun t => F.accum f (m + t + 1) := by
  induction n generalizing m with
  | zero => rfl
  | succ n ih =>
    rw [tab_succ', tab_succ', Fp.cumsumFrom]
    have e : F.rnd (F.accum f m + f (m + 0)) = F.accum f (m + 1) := rfl
    rw [e, show (fun i => f (m + (i + 1))) = fun t => f (m + 1 + t) by funext i; congr 1; omega, ih (m + 1)]
    congr 1
    apply tab_congr; intro t _
    rw [show m + (t + 1) + 1 = m + 1 + t + 1 by omega]

theorem Fp.cumsum_tab (F : Fp R) (n : ℕ) (f : ℕ → R) : F.cumsum (tab n f) = tab n fun t => F.accum f (t + 1) := by
  have := F.cumsumFrom_tab f n 0
  simpa [Fp.cumsum, Fp.accum] using this

theorem Near.accum {n k : ℕ} {a A x : ℕ → R} (h : ∀ t < n, Near F k (a t) (A t) (x t)) (t : ℕ) (ht : t ≤ n) :
    Near F (k + t) (∑ s ∈ Finset.range t, a s) (∑ s ∈ Finset.range t, A s) (F.accum x t) := by
  induction t with
  | zero => exact ⟨by simp, by simp [Fp.accum]⟩
  | succ t ih =>
    rw [Finset.sum_range_succ, Finset.sum_range_succ, Fp.accum]
    exact ((ih (by omega)).add ((h t (by omega)).mono (by omega))).rnd

theorem NearV.cumsum {n k : ℕ} {a A : ℕ → R} {tmp : List R} (h : NearV F n k a A tmp) :
    NearV F n (k + n) (fun t => ∑ s ∈ Finset.range (t + 1), a s) (fun t => ∑ s ∈ Finset.range (t + 1), A s)
      (F.cumsum tmp) := by
  obtain ⟨x, rfl, hx⟩ := h
  exact ⟨_, F.cumsum_tab _ _, fun t ht => (Near.accum hx (t + 1) (by omega)).mono (by omega)⟩

theorem Near.runMax {n k : ℕ} {a A x : ℕ → R} (h : ∀ t < n, Near F k (a t) (A t) (x t)) (t : ℕ) (ht : t < n) :
    Near F k (Fruits.runMax a t) (Fruits.runMax A t) (Fruits.runMax x t) := by
  induction t with
  | zero => exact h 0 ht
  | succ t ih => exact (ih (by omega)).max (h _ ht)

theorem NearV.maxLoop {n k : ℕ} {a A : ℕ → R} {tmp : List R} (h : NearV F n k a A tmp) :
    NearV F n k (Fruits.runMax a) (Fruits.runMax A) (Fruits.maxLoop tmp) := by
  obtain ⟨x, rfl, hx⟩ := h
  exact ⟨_, maxLoop_tab _ _, fun t ht => Near.runMax hx t ht⟩

theorem NearV.maxRow {n k : ℕ} {a A : ℕ → R} {tmp : List R} (h : NearV F n k a A tmp) (f : ℕ → R) :
    NearV F n k (Fruits.runMax a) (Fruits.runMax A) (maxRowLoop (tab n f) tmp) := by
  obtain ⟨x, rfl, hx⟩ := h
  exact ⟨_, maxRowLoop_tab _ _ _, fun t ht => Near.runMax hx t ht⟩

/-! ### letters -/

theorem NearV.mul_iter {n k : ℕ} {a A : ℕ → R} {tmp : List R} (h : NearV F n k a A tmp) (y : ℕ → R) (m : ℕ) :
    NearV F n (k + m) (fun t => a t * y t ^ m) (fun t => A t * |y t ^ m|)
      ((fun tmp => F.vmul tmp (tab n y))^[m] tmp) := by
  induction m with
  | zero => exact h.of_eq le_rfl (by simp) (by simp)
  | succ m ih =>
    rw [Function.iterate_succ_apply']
    exact (ih.vmul y).of_eq (by omega) (fun t _ => by rw [pow_succ]; ring)
      (fun t _ => by rw [pow_succ, abs_mul]; ring)

theorem NearV.div_iter {n k : ℕ} {a A : ℕ → R} {tmp : List R} (h : NearV F n k a A tmp) (y : ℕ → R) (m : ℕ) :
    NearV F n (k + m) (fun t => a t * (y t)⁻¹ ^ m) (fun t => A t * |(y t)⁻¹ ^ m|)
      ((fun tmp => F.vdiv tmp (tab n y))^[m] tmp) := by
  induction m with
  | zero => exact h.of_eq le_rfl (by simp) (by simp)
  | succ m ih =>
    rw [Function.iterate_succ_apply']
    exact (ih.vdiv y).of_eq (by omega) (fun t _ => by rw [pow_succ]; ring)
      (fun t _ => by rw [pow_succ, abs_mul]; ring)

theorem NearV.letterMul {n k d : ℕ} {a A : ℕ → R} {tmp : List R} (h : NearV F n k a A tmp) {Z : List (List R)}
    (hZ : Rect Z n) (hd : d < Z.length) (occ : ℤ) :
    NearV F n (k + occ.natAbs) (fun t => a t * entry Z d t ^ occ) (fun t => A t * |entry Z d t ^ occ|)
      (F.letterMul Z d occ tmp) := by
  unfold Fp.letterMul
  rw [row_tab hZ hd]
  split
  · next h1 =>
    obtain ⟨m, rfl⟩ := Int.eq_ofNat_of_zero_le h1.le
    simpa using h.mul_iter (fun t => entry Z d t) m
  · split
    · next h1 h2 =>
      obtain ⟨m, hm⟩ := Int.eq_ofNat_of_zero_le (by omega : 0 ≤ -occ)
      have : occ = -(m : ℤ) := by omega
      subst this
      simpa using h.div_iter (fun t => entry Z d t) m
    · next h1 h2 =>
      have : occ = 0 := by omega
      subst this
      simpa using h

/-- Number of multiplications and divisions of an extended letter. -/
def letterCost (el : List ℤ) : ℕ := (el.map Int.natAbs).sum

theorem letterCost_take {el : List ℤ} {j : ℕ} (hj : j < el.length) :
    letterCost (el.take (j + 1)) = letterCost (el.take j) + el[j].natAbs := by
  unfold letterCost
  rw [List.take_succ_eq_append_getElem hj, List.map_append, List.sum_append]
  simp only [List.map_cons, List.map_nil, List.sum_cons, List.sum_nil, add_zero]

theorem NearV.lettersMul {n k : ℕ} {a A : ℕ → R} {tmp : List R} (h : NearV F n k a A tmp) {Z : List (List R)}
    (hZ : Rect Z n) {el : List ℤ} (hel : Fits Z el) :
    NearV F n (k + letterCost el) (fun t => a t * monomial Z el t) (fun t => A t * |monomial Z el t|)
      (F.lettersMul Z el tmp) := by
  have := enumFold_inv (fun letter occ tmp => F.letterMul Z letter occ tmp)
    (fun j tmp => NearV F n (k + letterCost (el.take j))
      (fun t => a t * ∏ d ∈ Finset.range j, entry Z d t ^ (el.getD d 0))
      (fun t => A t * |∏ d ∈ Finset.range j, entry Z d t ^ (el.getD d 0)|) tmp)
    0 el tmp (by simpa [letterCost] using h) (by
      intro j hj s hs
      rw [zero_add] at *
      refine (hs.letterMul hZ (by unfold Fits at hel; omega : j < Z.length) el[j]).of_eq ?_ ?_ ?_
      · rw [letterCost_take hj]; omega
      · intro t _
        rw [Finset.prod_range_succ, mul_assoc]
        simp [List.getD_eq_getElem?_getD, hj]
      · intro t _
        rw [Finset.prod_range_succ, abs_mul, mul_assoc]
        simp [List.getD_eq_getElem?_getD, hj])
  unfold Fp.lettersMul
  rw [zero_add, List.take_length] at this
  exact this

/-- `∑_d |e_d * Z[d, t]|`. -/
def absLinform (Z : List (List R)) (e : List ℤ) (t : ℕ) : R :=
  ∑ d ∈ Finset.range e.length, |(e.getD d 0 : R) * entry Z d t|

theorem NearV.lettersAdd {n k : ℕ} {a A : ℕ → R} {tmp : List R} (h : NearV F n (k + 1) a A tmp) {Z : List (List R)}
    (hZ : Rect Z n) {el : List ℤ} (hel : Fits Z el) :
    NearV F n (k + 1 + el.length) (fun t => a t + linform Z el t) (fun t => A t + absLinform Z el t)
      (F.lettersAdd Z el tmp) := by
  have := enumFold_inv (fun dim (e : ℤ) tmp => F.vadd tmp ((row Z dim).map (fun x => F.rnd ((e : R) * x))))
    (fun j tmp => NearV F n (k + 1 + j)
      (fun t => a t + ∑ d ∈ Finset.range j, (el.getD d 0 : R) * entry Z d t)
      (fun t => A t + ∑ d ∈ Finset.range j, |(el.getD d 0 : R) * entry Z d t|) tmp)
    0 el tmp (by simpa using h) (by
      intro j hj s hs
      rw [zero_add] at *
      have hp : NearV F n (k + 1 + j) (fun t => (el[j] : R) * entry Z j t) (fun t => |(el[j] : R) * entry Z j t|)
          ((row Z j).map (fun x => F.rnd ((el[j] : R) * x))) := by
        rw [row_tab hZ (by unfold Fits at hel; omega), map_tab]
        exact ⟨_, rfl, fun t _ => (Near.refl 0 _).rnd.mono (by omega)⟩
      refine (hs.vadd hp).of_eq (by omega) ?_ ?_
      · intro t _
        rw [Finset.sum_range_succ, add_assoc]
        simp [List.getD_eq_getElem?_getD, hj]
      · intro t _
        rw [Finset.sum_range_succ, add_assoc]
        simp [List.getD_eq_getElem?_getD, hj])
  unfold Fp.lettersAdd
  simpa [linform, absLinform] using this

/-! ### the loop over the extended letters -/

/-- Loop rule: `P k` holds for `tmp` before iteration `k`, `Q k` for the row of the prefix with `k + 1` extended letters. -/
theorem kernel_inv {α : Type*} (word : List α) (ext : ℕ) (he : ext ≤ word.length)
    (P Q : ℕ → List R → Prop) (B : List R)
    (f : ℕ → α → List R × List (List R) → List R × List (List R)) (tmp0 : List R)
    (h0 : word ≠ [] → P 0 tmp0)
    (hstep : ∀ k (hk : k < word.length) tmp res, P k tmp →
      (word.length - k ≤ ext → res.getD (ext - (word.length - k)) [] = B) →
      ∃ tmp' v, f k word[k] (tmp, res) =
        (tmp', if word.length - k ≤ ext then res.set (ext - (word.length - k)) v else res) ∧
        (word.length - k ≤ ext → Q k v) ∧ (k + 1 < word.length → P (k + 1) tmp')) :
    (enumFold f 0 word (tmp0, List.replicate ext B)).2.length = ext ∧
      ∀ r < ext, Q (word.length - ext + r) ((enumFold f 0 word (tmp0, List.replicate ext B)).2.getD r []) := by
  have := enumFold_inv f (fun k s => (k < word.length → P k s.1) ∧ s.2.length = ext ∧
      ∀ r < ext, (word.length - ext + r < k → Q (word.length - ext + r) (s.2.getD r [])) ∧
        (k ≤ word.length - ext + r → s.2.getD r [] = B)) 0 word (tmp0, List.replicate ext B)
    ⟨fun h => h0 (by intro h'; simp [h'] at h), by simp, fun r hr =>
      ⟨fun h => absurd h (by omega), fun _ => by simp [List.getD_eq_getElem?_getD, hr]⟩⟩ (by
      rintro j hj ⟨tmp, res⟩ ⟨h1, h2, h3⟩
      simp only [zero_add] at *
      obtain ⟨tmp', v, e, hv, ht⟩ := hstep j hj tmp res (h1 hj) (fun h => (h3 _ (by omega)).2 (by omega))
      rw [e]
      refine ⟨ht, ?_, ?_⟩
      · dsimp only; split <;> simp [h2]
      · intro r hr
        dsimp only
        by_cases hs : word.length - j ≤ ext
        · rw [if_pos hs]
          by_cases hr' : r = ext - (word.length - j)
          · subst hr'
            rw [show word.length - ext + (ext - (word.length - j)) = j by omega]
            refine ⟨fun _ => ?_, fun h => absurd h (by omega)⟩
            rw [List.getD_eq_getElem?_getD, List.getElem?_set_self (by omega)]
            exact hv hs
          · rw [List.getD_eq_getElem?_getD, List.getElem?_set_ne (by omega), ← List.getD_eq_getElem?_getD]
            exact ⟨fun h => (h3 r hr).1 (by omega), fun h => (h3 r hr).2 (by omega)⟩
        · rw [if_neg hs]
          exact ⟨fun h => (h3 r hr).1 (by omega), fun h => (h3 r hr).2 (by omega)⟩)
  rw [zero_add] at this
  exact ⟨this.2.1, fun r hr => (this.2.2 r hr).1 (by omega)⟩

end Fruits
