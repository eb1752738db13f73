import Mathlib.Algebra.BigOperators.Fin
import Mathlib.Algebra.Order.Field.Basic
import Mathlib.Tactic.Ring
import Mathlib.Tactic.Linarith

/-!
# The numpy layer

One-dimensional arrays are lists.  Each numpy primitive used by `/repo` is written
here once, as an executable function on lists; `tab n f` (the list `f 0, …, f (n-1)`) is the
normal form used in the proofs.
-/

namespace Fruits

/-- `tab n f` is the array `[f 0, …, f (n-1)]`; proof normal form only. -/
def tab {α : Type*} (n : ℕ) (f : ℕ → α) : List α := (List.range n).map f

section tab
variable {α β γ : Type*}

@[simp] theorem tab_length (n : ℕ) (f : ℕ → α) : (tab n f).length = n := by simp [tab]

@[simp] theorem tab_zero (f : ℕ → α) : tab 0 f = [] := rfl

theorem tab_succ (n : ℕ) (f : ℕ → α) : tab (n + 1) f = tab n f ++ [f n] := by
  simp [tab, List.range_succ]

theorem tab_succ' (n : ℕ) (f : ℕ → α) : tab (n + 1) f = f 0 :: tab n (fun i => f (i + 1)) := by
  simp [tab, List.range_succ_eq_map, Function.comp_def]

theorem tab_getElem? (n : ℕ) (f : ℕ → α) (i : ℕ) :
    (tab n f)[i]? = if i < n then some (f i) else none := by
  simp only [tab, List.getElem?_map]
  split <;> simp_all

@[simp] theorem tab_getElem (n : ℕ) (f : ℕ → α) (i : ℕ) (h : i < (tab n f).length) :
    (tab n f)[i] = f i := by simp [tab]

theorem tab_getD (n : ℕ) (f : ℕ → α) (i : ℕ) (d : α) (h : i < n) : (tab n f).getD i d = f i := by
  simp [List.getD_eq_getElem?_getD, h]

theorem tab_congr {n : ℕ} {f g : ℕ → α} (h : ∀ i, i < n → f i = g i) : tab n f = tab n g := by
  apply List.map_congr_left
  intro a ha
  exact h a (List.mem_range.1 ha)

theorem tab_injective {n : ℕ} {f g : ℕ → α} (h : tab n f = tab n g) (i : ℕ) (hi : i < n) :
    f i = g i := by
  have := congrArg (fun l => l[i]?) h
  simpa [tab_getElem?, hi] using this

theorem tab_of_list (xs : List α) (d : α) : xs = tab xs.length (fun i => xs.getD i d) := by
  apply List.ext_getElem?
  intro i
  rw [tab_getElem?]
  split
  · next h => simp [List.getD_eq_getElem?_getD, h]
  · next h => simp at h; simp [h]

theorem eq_tab {xs : List α} {n : ℕ} {f : ℕ → α} (hl : xs.length = n)
    (h : ∀ i (hi : i < xs.length), xs[i] = f i) : xs = tab n f := by
  apply List.ext_getElem
  · simp [hl]
  · intro i h1 h2; simp [h i h1]

@[simp] theorem map_tab (n : ℕ) (f : ℕ → α) (g : α → β) :
    (tab n f).map g = tab n (fun i => g (f i)) := by simp [tab, Function.comp_def]

@[simp] theorem zipWith_tab (n : ℕ) (f : ℕ → α) (g : ℕ → β) (op : α → β → γ) :
    List.zipWith op (tab n f) (tab n g) = tab n (fun i => op (f i) (g i)) := by
  apply eq_tab
  · simp
  · intro i hi; simp

theorem set_tab (n : ℕ) (f : ℕ → α) (i : ℕ) (v : α) :
    (tab n f).set i v = tab n (fun j => if j = i then v else f j) := by
  apply eq_tab
  · simp
  · intro j hj
    rw [List.getElem_set]
    by_cases h : i = j
    · simp [h]
    · simp [h, Ne.symm h]

theorem take_tab (n m : ℕ) (f : ℕ → α) : (tab n f).take m = tab (min m n) f := by
  apply eq_tab
  · simp
  · intro i hi; simp

theorem drop_tab (n m : ℕ) (f : ℕ → α) : (tab n f).drop m = tab (n - m) (fun i => f (m + i)) := by
  apply eq_tab
  · simp
  · intro i hi; simp

theorem append_tab (n m : ℕ) (f g : ℕ → α) :
    tab n f ++ tab m g = tab (n + m) (fun i => if i < n then f i else g (i - n)) := by
  apply eq_tab
  · simp
  · intro i hi
    rw [List.getElem_append]
    by_cases h : i < n <;> simp [h]

theorem replicate_eq_tab (n : ℕ) (a : α) : List.replicate n a = tab n (fun _ => a) := by
  apply eq_tab <;> simp

theorem mem_tab {n : ℕ} {f : ℕ → α} {x : α} : x ∈ tab n f ↔ ∃ i, i < n ∧ f i = x := by
  simp [tab]

theorem tab_eq_nil {n : ℕ} {f : ℕ → α} : tab n f = [] ↔ n = 0 := by
  rw [← List.length_eq_zero_iff, tab_length]

theorem tab_add (n m : ℕ) (f : ℕ → α) : tab (n + m) f = tab n f ++ tab m (fun i => f (n + i)) := by
  rw [append_tab]
  apply tab_congr
  intro i _
  split
  · rfl
  · congr 1; omega

theorem reverse_tab (n : ℕ) (f : ℕ → α) : (tab n f).reverse = tab n (fun i => f (n - 1 - i)) := by
  apply eq_tab
  · simp
  · intro i hi; simp

end tab

section sums
variable {R : Type*}

@[simp] theorem sum_tab [AddCommMonoid R] (n : ℕ) (f : ℕ → R) :
    (tab n f).sum = ∑ i ∈ Finset.range n, f i := by
  induction n with
  | zero => simp
  | succ n ih => rw [tab_succ, List.sum_append, ih, Finset.sum_range_succ]; simp

/-! ### elementwise arithmetic -/

/-- `np.ones((n,))`. -/
def ones [One R] (n : ℕ) : List R := List.replicate n 1
/-- `np.zeros((n,))`. -/
def zeros [Zero R] (n : ℕ) : List R := List.replicate n 0
/-- `x + y` for arrays of equal length (numpy broadcasting of unequal lengths is not modelled:
`zipWith` truncates, and every theorem has equal lengths as hypothesis or invariant). -/
def vadd [Add R] (x y : List R) : List R := List.zipWith (· + ·) x y
/-- `x - y`. -/
def vsub [Sub R] (x y : List R) : List R := List.zipWith (· - ·) x y
/-- `x * y`. -/
def vmul [Mul R] (x y : List R) : List R := List.zipWith (· * ·) x y
/-- `x / y`. -/
def vdiv [Div R] (x y : List R) : List R := List.zipWith (· / ·) x y
/-- `x * a` with a scalar. -/
def vscale [Mul R] (x : List R) (a : R) : List R := x.map (· * a)

@[simp] theorem ones_eq [One R] (n : ℕ) : (ones n : List R) = tab n (fun _ => 1) :=
  replicate_eq_tab _ _
@[simp] theorem zeros_eq [Zero R] (n : ℕ) : (zeros n : List R) = tab n (fun _ => 0) :=
  replicate_eq_tab _ _
@[simp] theorem vadd_tab [Add R] (n : ℕ) (f g : ℕ → R) :
    vadd (tab n f) (tab n g) = tab n (fun i => f i + g i) := zipWith_tab _ _ _ _
@[simp] theorem vsub_tab [Sub R] (n : ℕ) (f g : ℕ → R) :
    vsub (tab n f) (tab n g) = tab n (fun i => f i - g i) := zipWith_tab _ _ _ _
@[simp] theorem vmul_tab [Mul R] (n : ℕ) (f g : ℕ → R) :
    vmul (tab n f) (tab n g) = tab n (fun i => f i * g i) := zipWith_tab _ _ _ _
@[simp] theorem vdiv_tab [Div R] (n : ℕ) (f g : ℕ → R) :
    vdiv (tab n f) (tab n g) = tab n (fun i => f i / g i) := zipWith_tab _ _ _ _
@[simp] theorem vscale_tab [Mul R] (n : ℕ) (f : ℕ → R) (a : R) :
    vscale (tab n f) a = tab n (fun i => f i * a) := map_tab _ _ _

/-! ### `np.cumsum` -/

/-- The running-total loop behind `np.cumsum`. -/
def cumsumFrom [Add R] (acc : R) : List R → List R
  | [] => []
  | x :: xs => (acc + x) :: cumsumFrom (acc + x) xs

/-- `np.cumsum(x)`. -/
def cumsum [Add R] [Zero R] (x : List R) : List R := cumsumFrom 0 x

theorem cumsumFrom_tab [AddCommMonoid R] (acc : R) (n : ℕ) (f : ℕ → R) :
    cumsumFrom acc (tab n f) = tab n (fun t => acc + ∑ s ∈ Finset.range (t + 1), f s) := by
  induction n generalizing acc f with
  | zero => rfl
  | succ n ih =>
    rw [tab_succ', tab_succ', cumsumFrom, ih]
    congr 1
    · simp
    · apply tab_congr
      intro i _
      rw [Finset.sum_range_succ' _ (i + 1), add_assoc]
      congr 1
      rw [add_comm]

@[simp] theorem cumsum_tab [AddCommMonoid R] (n : ℕ) (f : ℕ → R) :
    cumsum (tab n f) = tab n (fun t => ∑ s ∈ Finset.range (t + 1), f s) := by
  simp [cumsum, cumsumFrom_tab]

/-! ### `np.roll(x, 1)` and `x[0] = 0` -/

/-- `np.roll(x, 1)` for a one-dimensional array: the last value becomes the first. -/
def roll1 (x : List R) : List R := x.drop (x.length - 1) ++ x.take (x.length - 1)

/-- `x = np.roll(x, 1); x[0] = 0`.  (For an empty array numpy raises at `x[0] = 0`; here the result is
empty.) -/
def roll1z [Zero R] (x : List R) : List R := (roll1 x).set 0 0

@[simp] theorem roll1z_tab [Zero R] (n : ℕ) (f : ℕ → R) :
    roll1z (tab n f) = tab n (fun t => if t = 0 then 0 else f (t - 1)) := by
  unfold roll1z roll1
  rw [drop_tab, take_tab, append_tab, set_tab, tab_length]
  rcases n with _ | n
  · rfl
  · have h1 : n + 1 - (n + 1 - 1) + min (n + 1 - 1) (n + 1) = n + 1 := by omega
    rw [h1]
    apply tab_congr
    intro i hi
    split
    · rfl
    · next h =>
      have : ¬ i < n + 1 - (n + 1 - 1) := by omega
      rw [if_neg this]
      congr 1
      omega

/-! ### running maximum -/

/-- Running maximum of a sequence, by its recursion (proof normal form). -/
def runMax [Max R] (f : ℕ → R) : ℕ → R
  | 0 => f 0
  | t + 1 => max (runMax f t) (f (t + 1))

/-- The in-place loop `for i in range(1, n): tmp[i] = max(tmp[i-1], tmp[i])`. -/
def maxLoop [Max R] [Zero R] (tmp : List R) : List R :=
  (List.range' 1 (tmp.length - 1)).foldl
    (fun tmp i => tmp.set i (max (tmp.getD (i - 1) 0) (tmp.getD i 0))) tmp

/-- The loop `row[0] = tmp[0]; for i in range(1, n): row[i] = max(row[i-1], tmp[i])`. -/
def maxRowLoop [Max R] [Zero R] (row tmp : List R) : List R :=
  (List.range' 1 (tmp.length - 1)).foldl
    (fun row i => row.set i (max (row.getD (i - 1) 0) (tmp.getD i 0)))
    (row.set 0 (tmp.getD 0 0))

/-- `np.maximum.accumulate(x)`. -/
def maxAccFrom [Max R] (acc : R) : List R → List R
  | [] => []
  | x :: xs => max acc x :: maxAccFrom (max acc x) xs

/-- `np.maximum.accumulate(x)`. -/
def maxAcc [Max R] : List R → List R
  | [] => []
  | x :: xs => x :: maxAccFrom x xs

private theorem maxLoop_aux [Max R] [Zero R] (n : ℕ) (f : ℕ → R) (m : ℕ) (hm : m ≤ n - 1) :
    (List.range' 1 m).foldl
      (fun tmp i => tmp.set i (max (tmp.getD (i - 1) 0) (tmp.getD i 0))) (tab n f)
      = tab n (fun t => if t ≤ m then runMax f t else f t) := by
  induction m with
  | zero =>
    simp only [List.range'_zero, List.foldl_nil]
    apply tab_congr
    intro i _
    split
    · next h => have : i = 0 := by omega
                subst this; rfl
    · rfl
  | succ m ih =>
    rw [List.range'_concat, List.foldl_append, ih (by omega)]
    simp only [List.foldl_cons, List.foldl_nil, one_mul]
    rw [tab_getD _ _ _ _ (by omega), tab_getD _ _ _ _ (by omega), set_tab]
    apply tab_congr
    intro i hi
    by_cases h : i = 1 + m
    · subst h
      simp [Nat.add_comm 1 m, runMax]
    · rw [if_neg h]
      by_cases h2 : i ≤ m
      · rw [if_pos h2, if_pos (by omega)]
      · rw [if_neg h2, if_neg (by omega)]

@[simp] theorem maxLoop_tab [Max R] [Zero R] (n : ℕ) (f : ℕ → R) :
    maxLoop (tab n f) = tab n (runMax f) := by
  unfold maxLoop
  rw [tab_length, maxLoop_aux n f _ le_rfl]
  apply tab_congr
  intro i hi
  rw [if_pos (by omega)]

private theorem maxRowLoop_aux [Max R] [Zero R] (n : ℕ) (f : ℕ → R) (g : ℕ → R) (m : ℕ)
    (hm : m ≤ n - 1) :
    (List.range' 1 m).foldl
      (fun row i => row.set i (max (row.getD (i - 1) 0) ((tab n f).getD i 0)))
        (tab n fun j => if j = 0 then f 0 else g j)
      = tab n (fun t => if t ≤ m then runMax f t else g t) := by
  induction m with
  | zero =>
    simp only [List.range'_zero, List.foldl_nil]
    apply tab_congr
    intro i _
    by_cases h : i = 0
    · subst h; simp [runMax]
    · simp [h]
  | succ m ih =>
    rw [List.range'_concat, List.foldl_append, ih (by omega)]
    simp only [List.foldl_cons, List.foldl_nil, one_mul]
    rw [tab_getD _ _ _ _ (by omega), tab_getD _ _ _ _ (by omega), set_tab]
    apply tab_congr
    intro i hi
    by_cases h : i = 1 + m
    · subst h
      simp [Nat.add_comm 1 m, runMax]
    · rw [if_neg h]
      by_cases h2 : i ≤ m
      · rw [if_pos h2, if_pos (by omega)]
      · rw [if_neg h2, if_neg (by omega)]

theorem maxRowLoop_tab [Max R] [Zero R] (n : ℕ) (f g : ℕ → R) :
    maxRowLoop (tab n g) (tab n f) = tab n (runMax f) := by
  unfold maxRowLoop
  rcases n with _ | n
  · rfl
  · rw [tab_length, tab_getD _ _ _ _ (by omega), set_tab,
      maxRowLoop_aux (n + 1) f g (n + 1 - 1) le_rfl]
    apply tab_congr
    intro i hi
    rw [if_pos (by omega)]

private theorem maxAccFrom_tab [Max R] (n : ℕ) (f : ℕ → R) (m : ℕ) :
    maxAccFrom (runMax f m) (tab n (fun i => f (m + 1 + i)))
      = tab n (fun i => runMax f (m + 1 + i)) := by
  induction n generalizing m with
  | zero => rfl
  | succ n ih =>
    rw [tab_succ', tab_succ', maxAccFrom]
    have e1 : (fun i => f (m + 1 + (i + 1))) = fun i => f (m + 1 + 1 + i) := by
      funext i; congr 1; omega
    have e2 : (fun i => runMax f (m + 1 + (i + 1))) = fun i => runMax f (m + 1 + 1 + i) := by
      funext i; exact congrArg _ (by omega)
    rw [e1, e2, ← ih (m + 1)]
    rfl

@[simp] theorem maxAcc_tab [Max R] (n : ℕ) (f : ℕ → R) :
    maxAcc (tab n f) = tab n (runMax f) := by
  rcases n with _ | n
  · rfl
  · rw [tab_succ', tab_succ', maxAcc]
    have := maxAccFrom_tab n f 0
    simp only [runMax] at this
    congr 1
    rw [show (fun i => f (i + 1)) = fun i => f (0 + 1 + i) by funext i; congr 1; omega, this]
    apply tab_congr; intro i _; congr 1; omega

end sums

/-! ### enumerate loops -/

/-- `for k, x in enumerate(xs, start=k): s = f(k, x, s)`. -/
def enumFold {α σ : Type*} (f : ℕ → α → σ → σ) : ℕ → List α → σ → σ
  | _, [], s => s
  | k, x :: xs, s => enumFold f (k + 1) xs (f k x s)

/-- Loop invariant rule for `enumFold`. -/
theorem enumFold_inv {α σ : Type*} (f : ℕ → α → σ → σ) (Inv : ℕ → σ → Prop) (k : ℕ) (xs : List α)
    (s : σ) (h0 : Inv k s)
    (hstep : ∀ j (hj : j < xs.length) s, Inv (k + j) s → Inv (k + j + 1) (f (k + j) xs[j] s)) :
    Inv (k + xs.length) (enumFold f k xs s) := by
  induction xs generalizing k s with
  | nil => simpa [enumFold] using h0
  | cons x xs ih =>
    rw [enumFold]
    have h1 := hstep 0 (by simp) s (by simpa using h0)
    have := ih (k + 1) (f k x s) (by simpa using h1) (by
      intro j hj s hs
      have := hstep (j + 1) (by simpa using hj) s (by
        rw [show k + (j + 1) = k + 1 + j by omega]; exact hs)
      rw [show k + (j + 1) = k + 1 + j by omega] at this
      simpa using this)
    rw [show k + (x :: xs).length = k + 1 + xs.length by simp; omega]
    exact this

/-- Row `d` of a series `Z[d, :]`.  (An out-of-range `d` is an out-of-bounds read in the compiled code;
theorems assume `d < len(Z)`.) -/
def row {R : Type*} (Z : List (List R)) (d : ℕ) : List R := Z.getD d []

/-- A series is *rectangular* with `n` time steps: a `numpy` array of shape `(dims, n)`. -/
def Rect {R : Type*} (Z : List (List R)) (n : ℕ) : Prop := ∀ x ∈ Z, x.length = n

theorem row_eq_tab {R : Type*} [Zero R] {Z : List (List R)} {n d : ℕ} (h : Rect Z n)
    (hd : d < Z.length) : row Z d = tab n (fun t => (row Z d).getD t 0) := by
  have : (row Z d).length = n := by
    apply h
    simp [row, hd]
  rw [← this]
  exact tab_of_list _ _

end Fruits
