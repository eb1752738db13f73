import Verif.Np
import Mathlib.Data.Fintype.Pi
import Mathlib.Order.Fin.Basic
import Mathlib.Data.Fin.Tuple.Basic
import Mathlib.Order.Bounds.Basic
import Mathlib.Data.Fintype.BigOperators

/-!
# Specification of iterated sums, independent of the code

* `entry Z d t` — the value of dimension `d` at time `t`.
* `monomial Z e t` — product over the dimensions of `x_d(t) ^ e_d`.
* `linform Z e t` — sum over the dimensions of `e_d * x_d(t)`.
* `incTuples p n` — all index tuples `i_0 < i_1 < … < i_{p-1} < n`.
-/

namespace Fruits
variable {R : Type*}

/-- `Z[d, t]`. -/
def entry [Zero R] (Z : List (List R)) (d t : ℕ) : R := (Z.getD d []).getD t 0

/-- `∏_d Z[d, t] ^ e_d` (negative exponents allowed). -/
def monomial [Field R] (Z : List (List R)) (e : List ℤ) (t : ℕ) : R :=
  ∏ d ∈ Finset.range e.length, entry Z d t ^ (e.getD d 0)

/-- `∑_d e_d * Z[d, t]`. -/
def linform [Field R] (Z : List (List R)) (e : List ℤ) (t : ℕ) : R :=
  ∑ d ∈ Finset.range e.length, (e.getD d 0 : R) * entry Z d t

/-- All tuples `i_0 < i_1 < … < i_{p-1}` with entries in `{0, …, n-1}`. -/
def incTuples (p n : ℕ) : Finset (Fin p → ℕ) :=
  (Fintype.piFinset fun _ => Finset.range n).filter StrictMono

theorem mem_incTuples {p n : ℕ} {i : Fin p → ℕ} :
    i ∈ incTuples p n ↔ (∀ j, i j < n) ∧ StrictMono i := by
  simp [incTuples]

/-- Splitting off the largest index. -/
theorem sum_incTuples_succ [AddCommMonoid R] (p n : ℕ) (F : (Fin (p + 1) → ℕ) → R) :
    ∑ i ∈ incTuples (p + 1) n, F i
      = ∑ s ∈ Finset.range n, ∑ i ∈ incTuples p s, F (Fin.snoc (α := fun _ => ℕ) i s) := by
  rw [Finset.sum_sigma']
  refine Finset.sum_bij' (fun i _ => ⟨i (Fin.last p), Fin.init i⟩)
    (fun x _ => Fin.snoc (α := fun _ => ℕ) x.2 x.1) ?_ ?_ ?_ ?_ ?_
  · intro i hi
    rw [mem_incTuples] at hi
    simp only [Finset.mem_sigma, Finset.mem_range, mem_incTuples]
    refine ⟨hi.1 _, fun j => ?_, ?_⟩
    · exact hi.2 (Fin.castSucc_lt_last j)
    · intro a b hab
      exact hi.2 (Fin.castSucc_lt_castSucc_iff.2 hab)
  · intro x hx
    simp only [Finset.mem_sigma, Finset.mem_range, mem_incTuples] at hx
    rw [mem_incTuples]
    refine ⟨fun j => ?_, ?_⟩
    · induction j using Fin.lastCases with
      | last => simpa using hx.1
      | cast j => simpa using (hx.2.1 j).trans hx.1
    · intro a b hab
      induction b using Fin.lastCases with
      | last =>
        induction a using Fin.lastCases with
        | last => exact absurd hab (lt_irrefl _)
        | cast a => simpa using hx.2.1 a
      | cast b =>
        induction a using Fin.lastCases with
        | last => exact absurd hab (not_lt.2 (Fin.le_last _))
        | cast a =>
          simpa using hx.2.2 (Fin.castSucc_lt_castSucc_iff.1 hab)
  · intro i _
    simp [Fin.snoc_init_self]
  · intro x _
    simp [Fin.init_snoc]
  · intro i _
    simp [Fin.snoc_init_self]

theorem incTuples_zero (n : ℕ) : incTuples 0 n = {Fin.elim0} := by
  ext i
  simp only [mem_incTuples, Finset.mem_singleton]
  constructor
  · intro _; exact Subsingleton.elim _ _
  · intro _; exact ⟨fun j => j.elim0, fun a => a.elim0⟩

/-- `∑_{i_0 < … < i_{p-1} < n} ∏_j c_j(i_j)`. -/
def incSum [CommSemiring R] (c : ℕ → ℕ → R) (p n : ℕ) : R :=
  ∑ i ∈ incTuples p n, ∏ j : Fin p, c j (i j)

@[simp] theorem incSum_zero [CommSemiring R] (c : ℕ → ℕ → R) (n : ℕ) : incSum c 0 n = 1 := by
  simp [incSum, incTuples_zero]

theorem incSum_succ [CommSemiring R] (c : ℕ → ℕ → R) (p n : ℕ) :
    incSum c (p + 1) n = ∑ s ∈ Finset.range n, incSum c p s * c p s := by
  unfold incSum
  rw [sum_incTuples_succ]
  apply Finset.sum_congr rfl
  intro s _
  rw [Finset.sum_mul]
  apply Finset.sum_congr rfl
  intro i _
  rw [Fin.prod_univ_castSucc]
  simp

theorem incSum_congr [CommSemiring R] {c c' : ℕ → ℕ → R} {p n : ℕ}
    (h : ∀ j < p, ∀ t < n, c j t = c' j t) : incSum c p n = incSum c' p n := by
  unfold incSum
  apply Finset.sum_congr rfl
  intro i hi
  rw [mem_incTuples] at hi
  apply Finset.prod_congr rfl
  intro j _
  exact h _ j.2 _ (hi.1 j)

/-- The index following `i_j` in a tuple: `i_{j+1}`, and the current time `t` after the last one. -/
def nextIdx {p : ℕ} (i : Fin p → ℕ) (t : ℕ) (j : Fin p) : ℕ :=
  if h : (j : ℕ) + 1 < p then i ⟨j + 1, h⟩ else t

/-- The exponent of the weighting of a tuple: `∑_j α_j (g(i_j) - g(i_{j+1}))` over consecutive indices and,
if `total`, also `α_{p-1} (g(i_{p-1}) - g(t))`. -/
def penalty [Field R] (total : Bool) (al g : ℕ → R) {p : ℕ} (i : Fin p → ℕ) (t : ℕ) : R :=
  ∑ j : Fin p, if (j : ℕ) + 1 < p ∨ total = true
    then al j * (g (i j) - g (nextIdx i t j)) else 0

theorem penalty_succ [Field R] (total : Bool) (al g : ℕ → R) {p : ℕ} (i : Fin (p + 1) → ℕ) (t : ℕ) :
    penalty total al g i t = (∑ j : Fin p, al j * (g (i j.castSucc) - g (i j.succ)))
      + (if total then al p * (g (i (Fin.last p)) - g t) else 0) := by
  unfold penalty
  rw [Fin.sum_univ_castSucc]
  congr 1
  · apply Finset.sum_congr rfl
    intro j _
    have h : ((j.castSucc : Fin (p + 1)) : ℕ) + 1 < p + 1 := by simp
    rw [if_pos (Or.inl h), nextIdx, dif_pos h]
    rfl
  · have h : ¬ (((Fin.last p : Fin (p + 1)) : ℕ) + 1 < p + 1) := by simp
    rw [nextIdx, dif_neg h]
    cases total <;> simp

/-- Weakly increasing tuples `i_0 ≤ … ≤ i_{p-1} ≤ t`. -/
def WeakTuple {p : ℕ} (t : ℕ) (i : Fin p → ℕ) : Prop := Monotone i ∧ ∀ j, i j ≤ t

/-! ### Running maxima are attained maxima -/

theorem runMax_isGreatest [LinearOrder R] (f : ℕ → R) (t : ℕ) :
    IsGreatest {v | ∃ s, s ≤ t ∧ v = f s} (runMax f t) := by
  induction t with
  | zero =>
    refine ⟨⟨0, le_rfl, rfl⟩, ?_⟩
    rintro v ⟨s, hs, rfl⟩
    have : s = 0 := by omega
    subst this; exact le_rfl
  | succ t ih =>
    obtain ⟨⟨s, hs, hv⟩, hub⟩ := ih
    constructor
    · rw [runMax]
      rcases le_total (runMax f t) (f (t + 1)) with h | h
      · exact ⟨t + 1, le_rfl, max_eq_right h⟩
      · exact ⟨s, by omega, by rw [max_eq_left h, hv]⟩
    · rintro v ⟨s, hs, rfl⟩
      rw [runMax]
      rcases Nat.lt_or_ge s (t + 1) with h | h
      · exact le_max_of_le_left (hub ⟨s, by omega, rfl⟩)
      · have : s = t + 1 := by omega
        subst this; exact le_max_right _ _

theorem runMax_le_iff [LinearOrder R] (f : ℕ → R) (t : ℕ) (v : R) :
    runMax f t ≤ v ↔ ∀ s ≤ t, f s ≤ v := by
  obtain ⟨⟨s, hs, hv⟩, hub⟩ := runMax_isGreatest f t
  constructor
  · intro h s hs; exact (hub ⟨s, hs, rfl⟩).trans h
  · intro h; rw [hv]; exact h s hs

theorem le_runMax [LinearOrder R] (f : ℕ → R) {s t : ℕ} (h : s ≤ t) : f s ≤ runMax f t :=
  (runMax_isGreatest f t).2 ⟨s, h, rfl⟩

theorem runMax_mono [LinearOrder R] (f : ℕ → R) : Monotone (runMax f) :=
  monotone_nat_of_le_succ fun _ => le_max_left _ _

theorem runMax_congr [Max R] {f g : ℕ → R} {t : ℕ} (h : ∀ s ≤ t, f s = g s) :
    runMax f t = runMax g t := by
  induction t with
  | zero => exact h 0 le_rfl
  | succ t ih => rw [runMax, runMax, ih fun s hs => h s (by omega), h _ le_rfl]

/-- A tuple value built up from the left: `op (… op (op b (a_0 i_0)) (a_1 i_1) …) (a_{p-1} i_{p-1})`. -/
def chainVal (op : R → R → R) (b : R) (a : ℕ → ℕ → R) : (p : ℕ) → (Fin p → ℕ) → R
  | 0, _ => b
  | p + 1, i => op (chainVal op b a p (Fin.init i)) (a p (i (Fin.last p)))

/-- The recursion carried out by the max-kernels. `chainMax … p t` for `p ≥ 1`. -/
def chainMax [Max R] (op : R → R → R) (b : R) (a : ℕ → ℕ → R) : ℕ → ℕ → R
  | 0, _ => b
  | p + 1, t => runMax (fun s => op (chainMax op b a p s) (a p s)) t

theorem WeakTuple.snoc {p t s : ℕ} {i : Fin p → ℕ} (h : WeakTuple s i) (hs : s ≤ t) :
    WeakTuple t (Fin.snoc (α := fun _ => ℕ) i s : Fin (p + 1) → ℕ) := by
  refine ⟨?_, ?_⟩
  · intro a b hab
    induction b using Fin.lastCases with
    | last =>
      induction a using Fin.lastCases with
      | last => exact le_rfl
      | cast a => simpa using h.2 a
    | cast b =>
      induction a using Fin.lastCases with
      | last => exact absurd (lt_of_lt_of_le (Fin.castSucc_lt_last b) hab) (lt_irrefl _)
      | cast a => simpa using h.1 (Fin.castSucc_le_castSucc_iff.1 hab)
  · intro j
    induction j using Fin.lastCases with
    | last => simpa using hs
    | cast j => simpa using (h.2 j).trans hs

theorem WeakTuple.init {p t : ℕ} {i : Fin (p + 1) → ℕ} (h : WeakTuple t i) :
    WeakTuple (i (Fin.last p)) (Fin.init i) :=
  ⟨fun _ _ hab => h.1 (Fin.castSucc_le_castSucc_iff.2 hab),
   fun j => h.1 (Fin.castSucc_lt_last j).le⟩

/-- The chained running maximum is the attained maximum over all weakly increasing tuples, whenever each step
is monotone in the accumulated value.  `t` may be restricted to `t < n`. -/
theorem chainMax_isGreatest [LinearOrder R] (op : R → R → R) (b : R) (a : ℕ → ℕ → R) (p n : ℕ)
    (hmono : ∀ j < p, ∀ s < n, Monotone fun x => op x (a j s)) (t : ℕ) (ht : t < n) :
    IsGreatest {v | ∃ i : Fin p → ℕ, WeakTuple t i ∧ v = chainVal op b a p i}
      (chainMax op b a p t) := by
  induction p generalizing t with
  | zero =>
    refine ⟨⟨Fin.elim0, ⟨fun a => a.elim0, fun j => j.elim0⟩, rfl⟩, ?_⟩
    rintro v ⟨i, _, rfl⟩
    exact le_rfl
  | succ p ih =>
    have ih' := ih (fun j hj => hmono j (by omega))
    rw [chainMax]
    obtain ⟨⟨s, hs, hv⟩, hub⟩ := runMax_isGreatest (fun s => op (chainMax op b a p s) (a p s)) t
    constructor
    · obtain ⟨⟨i, hi, hiv⟩, _⟩ := ih' s (by omega)
      refine ⟨Fin.snoc (α := fun _ => ℕ) i s, hi.snoc hs, ?_⟩
      rw [hv, chainVal]
      simp [hiv, Fin.init_snoc]
    · rintro v ⟨i, hi, rfl⟩
      refine le_trans ?_ (hub ⟨i (Fin.last p), hi.2 _, rfl⟩)
      rw [chainVal]
      have hl : i (Fin.last p) < n := lt_of_le_of_lt (hi.2 _) ht
      exact hmono p (by omega) _ hl ((ih' _ hl).2 ⟨Fin.init i, hi.init, rfl⟩)

theorem chainVal_add [AddCommMonoid R] (b : R) (a : ℕ → ℕ → R) (p : ℕ) (i : Fin p → ℕ) :
    chainVal (· + ·) b a p i = b + ∑ j : Fin p, a j (i j) := by
  induction p with
  | zero => simp [chainVal]
  | succ p ih => rw [chainVal, ih, Fin.sum_univ_castSucc]; simp [Fin.init, add_assoc]

theorem chainVal_mul [CommMonoid R] (b : R) (a : ℕ → ℕ → R) (p : ℕ) (i : Fin p → ℕ) :
    chainVal (· * ·) b a p i = b * ∏ j : Fin p, a j (i j) := by
  induction p with
  | zero => simp [chainVal]
  | succ p ih => rw [chainVal, ih, Fin.prod_univ_castSucc]; simp [Fin.init, mul_assoc]

theorem chainMax_congr [Max R] (op : R → R → R) (b : R) {a a' : ℕ → ℕ → R} {p t : ℕ}
    (h : ∀ j < p, ∀ s ≤ t, a j s = a' j s) : chainMax op b a p t = chainMax op b a' p t := by
  induction p generalizing t with
  | zero => rfl
  | succ p ih =>
    rw [chainMax, chainMax]
    apply runMax_congr
    intro s hs
    rw [ih fun j hj u hu => h j (by omega) u (by omega), h p (by omega) s hs]

end Fruits
