import Verif.FastMath

/-! # Whatever the compiler does: an error bound -/

namespace Fruits
set_option linter.unusedSectionVars false
variable {R : Type}

namespace Expr

/-- The largest number of roundings that any way of evaluating the expression applies to one of its products. -/
def cost : Expr R → ℕ
  | const _ => 0
  | add a b => Max.max (a.cost + b.terms) (b.cost + a.terms)
  | neg a => a.cost
  | mul a b => a.cost + b.cost + 1
  | divBy a _ => a.cost + 2
  | recip _ => 1
  | max a b => Max.max a.cost b.cost

theorem terms_pos (e : Expr R) : 1 ≤ e.terms := by
  induction e with
  | add a b iha ihb => simp only [terms]; omega
  | neg a ih => exact ih
  | _ => exact le_rfl

variable [Field R] [LinearOrder R] [IsStrictOrderedRing R]

/-- The exact value. -/
def val : Expr R → R
  | const c => c
  | add a b => a.val + b.val
  | neg a => -a.val
  | mul a b => a.val * b.val
  | divBy a z => a.val * z⁻¹
  | recip z => z⁻¹
  | max a b => Max.max a.val b.val

/-- The exact value with the absolute values of all numbers, all signs being `+`. -/
def absval : Expr R → R
  | const c => |c|
  | add a b => a.absval + b.absval
  | neg a => a.absval
  | mul a b => a.absval * b.absval
  | divBy a z => a.absval * |z⁻¹|
  | recip z => |z⁻¹|
  | max a b => Max.max a.absval b.absval

theorem absval_nonneg (e : Expr R) : 0 ≤ e.absval := by
  induction e with
  | const c => exact abs_nonneg c
  | add a b iha ihb => exact add_nonneg iha ihb
  | neg a ih => exact ih
  | mul a b iha ihb => exact mul_nonneg iha ihb
  | divBy a z ih => exact mul_nonneg ih (abs_nonneg _)
  | recip z => exact abs_nonneg _
  | max a b iha ihb => exact le_max_of_le_left iha

theorem Rw.sound {e e' : Expr R} (h : Rw e e') : e'.val = e.val ∧ e'.absval = e.absval ∧ e'.cost ≤ e.cost ∧ e'.terms ≤ e.terms := by
  induction h with
  | refl a => exact ⟨rfl, rfl, le_rfl, le_rfl⟩
  | trans _ _ ih1 ih2 => exact ⟨ih2.1.trans ih1.1, ih2.2.1.trans ih1.2.1, ih2.2.2.1.trans ih1.2.2.1, ih2.2.2.2.trans ih1.2.2.2⟩
  | add_congr _ _ ih1 ih2 =>
    obtain ⟨a1, a2, a3, a4⟩ := ih1; obtain ⟨b1, b2, b3, b4⟩ := ih2
    refine ⟨by simp only [val, a1, b1], by simp only [absval, a2, b2], ?_, by simp only [terms]; omega⟩
    simp only [cost]; omega
  | mul_congr _ _ ih1 ih2 =>
    obtain ⟨a1, a2, a3, a4⟩ := ih1; obtain ⟨b1, b2, b3, b4⟩ := ih2
    refine ⟨by simp only [val, a1, b1], by simp only [absval, a2, b2], ?_, le_rfl⟩
    simp only [cost]; omega
  | max_congr _ _ ih1 ih2 =>
    obtain ⟨a1, a2, a3, a4⟩ := ih1; obtain ⟨b1, b2, b3, b4⟩ := ih2
    refine ⟨by simp only [val, a1, b1], by simp only [absval, a2, b2], ?_, le_rfl⟩
    simp only [cost]; omega
  | neg_congr _ ih => obtain ⟨a1, a2, a3, a4⟩ := ih; exact ⟨by simp only [val, a1], a2, a3, a4⟩
  | div_congr z _ ih =>
    obtain ⟨a1, a2, a3, a4⟩ := ih
    exact ⟨by simp only [val, a1], by simp only [absval, a2], by simp only [cost]; omega, le_rfl⟩
  | add_comm a b =>
    refine ⟨by simp only [val]; ring, by simp only [absval]; ring, ?_, ?_⟩ <;> simp only [cost, terms] <;> omega
  | add_assoc a b c =>
    refine ⟨by simp only [val]; ring, by simp only [absval]; ring, ?_, ?_⟩ <;> simp only [cost, terms] <;> omega
  | add_assoc' a b c =>
    refine ⟨by simp only [val]; ring, by simp only [absval]; ring, ?_, ?_⟩ <;> simp only [cost, terms] <;> omega
  | mul_comm a b =>
    refine ⟨by simp only [val]; ring, by simp only [absval]; ring, ?_, ?_⟩ <;> simp only [cost, terms] <;> omega
  | mul_assoc a b c =>
    refine ⟨by simp only [val]; ring, by simp only [absval]; ring, ?_, ?_⟩ <;> simp only [cost, terms] <;> omega
  | mul_assoc' a b c =>
    refine ⟨by simp only [val]; ring, by simp only [absval]; ring, ?_, ?_⟩ <;> simp only [cost, terms] <;> omega
  | max_comm a b =>
    refine ⟨by simp only [val]; exact _root_.max_comm _ _, by simp only [absval]; exact _root_.max_comm _ _, ?_, ?_⟩ <;> simp only [cost, terms] <;> omega
  | max_assoc a b c =>
    refine ⟨by simp only [val]; exact (_root_.max_assoc _ _ _).symm, by simp only [absval]; exact (_root_.max_assoc _ _ _).symm, ?_, ?_⟩ <;>
      simp only [cost, terms] <;> omega
  | max_assoc' a b c =>
    refine ⟨by simp only [val]; exact _root_.max_assoc _ _ _, by simp only [absval]; exact _root_.max_assoc _ _ _, ?_, ?_⟩ <;>
      simp only [cost, terms] <;> omega
  | zero_add a =>
    refine ⟨by simp [val], by simp [absval], ?_, ?_⟩ <;> simp only [cost, terms] <;> omega
  | one_mul c =>
    refine ⟨by simp [val], by simp [absval], ?_, ?_⟩ <;> simp only [cost, terms] <;> omega
  | neg_neg a => exact ⟨by simp [val], rfl, le_rfl, le_rfl⟩
  | neg_add a b => exact ⟨by simp only [val]; ring, rfl, le_rfl, le_rfl⟩
  | neg_add' a b => exact ⟨by simp only [val]; ring, rfl, le_rfl, le_rfl⟩
  | mul_neg a b => exact ⟨by simp only [val]; ring, rfl, le_rfl, le_rfl⟩
  | mul_neg' a b => exact ⟨by simp only [val]; ring, rfl, le_rfl, le_rfl⟩
  | div_recip a z => exact ⟨rfl, rfl, le_rfl, le_rfl⟩
  | div_mul a b z =>
    refine ⟨by simp only [val]; ring, by simp only [absval]; ring, ?_, le_rfl⟩
    simp only [cost]; omega
  | div_mul' a b z =>
    refine ⟨by simp only [val]; ring, by simp only [absval]; ring, ?_, le_rfl⟩
    simp only [cost]; omega
  | factor x a b ha hb =>
    refine ⟨by simp only [val]; ring, by simp only [absval]; ring, ?_, ?_⟩ <;> simp only [cost, terms, ha, hb] <;> omega

variable {F : Fp R}

theorem Rounds.near {k : ℕ} {a A x y : R} (h : Rounds F x y) (hn : Near F k a A x) : Near F (k + 1) a A y := by
  rcases h with rfl | rfl
  exacts [hn.rnd, hn.mono (by omega)]

theorem near_mul {k l : ℕ} {a A x b B y : R} (h : Near F k a A x) (h' : Near F l b B y) : Near F (k + l) (a * b) (A * B) (x * y) := by
  refine ⟨by rw [abs_mul]; exact mul_le_mul h.bound h'.bound (abs_nonneg _) h.nonneg, ?_⟩
  have e : x * y - a * b = (x - a) * y + a * (y - b) := by ring
  have h1 := abs_add_le ((x - a) * y) (a * (y - b))
  rw [← e, abs_mul, abs_mul] at h1
  have h2 : |x - a| * |y| ≤ (F.gam k * A) * ((1 + F.gam l) * B) :=
    mul_le_mul h.err h'.abs_le (abs_nonneg _) (mul_nonneg (F.gam_nonneg k) h.nonneg)
  have h3 : |a| * |y - b| ≤ A * (F.gam l * B) := mul_le_mul h.bound h'.err (abs_nonneg _) h.nonneg
  have h4 : F.gam (k + l) * (A * B) = (F.gam k * A) * ((1 + F.gam l) * B) + A * (F.gam l * B) := by
    simp only [Fp.gam, pow_add]; ring
  linarith

/-- Every evaluation is near the exact value. -/
theorem Ev.near {e : Expr R} {y : R} (h : Ev F e y) : Near F e.cost e.val e.absval y := by
  induction h with
  | const c => exact Near.refl 0 c
  | @add a b x y z _ _ hr iha ihb =>
    have ha := terms_pos a; have hb := terms_pos b
    refine (hr.near ((iha.mono (l := Max.max a.cost b.cost) (by omega)).add (ihb.mono (by omega)))).mono ?_
    simp only [cost]; omega
  | neg _ ih => exact ih.neg
  | mul _ _ hr iha ihb => exact hr.near (near_mul iha ihb)
  | divBy _ hr ih => exact (hr.near (ih.div_const _)).mono (by simp only [cost]; omega)
  | recip hr => exact hr.near (Near.refl 0 _)
  | @max a b x y _ _ iha ihb =>
    exact (iha.mono (l := Max.max a.cost b.cost) (by omega)).max (ihb.mono (by omega))

theorem Fast.near {e : Expr R} {y : R} (h : Fast F e y) : Near F e.cost e.val e.absval y := by
  obtain ⟨e', h1, h2⟩ := h
  obtain ⟨s1, s2, s3, -⟩ := h1.sound
  exact (h2.near.of_eq s1 s2).mono s3

theorem ev_Ev (e : Expr R) : Ev F e (e.ev F) := by
  induction e with
  | const c => exact .const c
  | add a b iha ihb => exact .add iha ihb (Or.inl rfl)
  | neg a ih => exact .neg ih
  | mul a b iha ihb => exact .mul iha ihb (Or.inl rfl)
  | divBy a z ih => exact .divBy ih (Or.inl rfl)
  | recip z => exact .recip (Or.inl rfl)
  | max a b iha ihb => exact .max iha ihb

/-- The evaluation in the order of the source text is one of them. -/
theorem ev_fast (e : Expr R) : Fast F e (e.ev F) := ⟨e, .refl e, ev_Ev e⟩

/-! ### arrays of expressions -/

/-- `tmp` has length `n`; the entries have the values `a t` (absolute values `A t`), cost at most `k` and at most `s` summands. -/
def SymV (n k s : ℕ) (a A : ℕ → R) (tmp : List (Expr R)) : Prop :=
  ∃ x : ℕ → Expr R, tmp = tab n x ∧ ∀ t < n, (x t).val = a t ∧ (x t).absval = A t ∧ (x t).cost ≤ k ∧ (x t).terms ≤ s

theorem SymV.of_eq {n k l s s' : ℕ} {a A b B : ℕ → R} {tmp : List (Expr R)} (h : SymV n k s a A tmp) (hk : k ≤ l) (hs : s ≤ s')
    (h1 : ∀ t < n, a t = b t) (h2 : ∀ t < n, A t = B t) : SymV n l s' b B tmp := by
  obtain ⟨x, rfl, hx⟩ := h
  refine ⟨x, rfl, fun t ht => ?_⟩
  obtain ⟨e1, e2, e3, e4⟩ := hx t ht
  exact ⟨e1.trans (h1 t ht), e2.trans (h2 t ht), e3.trans hk, e4.trans hs⟩

theorem SymV.vmul {n k s : ℕ} {a A : ℕ → R} {tmp : List (Expr R)} (h : SymV n k s a A tmp) (y : ℕ → R) :
    SymV n (k + 1) 1 (fun t => a t * y t) (fun t => A t * |y t|) (vmul tmp (tab n y)) := by
  obtain ⟨x, rfl, hx⟩ := h
  refine ⟨_, zipWith_tab _ _ _ _, fun t ht => ?_⟩
  obtain ⟨e1, e2, e3, e4⟩ := hx t ht
  exact ⟨by simp only [val, e1], by simp only [absval, e2], by simp only [cost]; omega, le_rfl⟩

theorem SymV.vdiv {n k s : ℕ} {a A : ℕ → R} {tmp : List (Expr R)} (h : SymV n k s a A tmp) (y : ℕ → R) :
    SymV n (k + 2) 1 (fun t => a t * (y t)⁻¹) (fun t => A t * |(y t)⁻¹|) (vdiv tmp (tab n y)) := by
  obtain ⟨x, rfl, hx⟩ := h
  refine ⟨_, zipWith_tab _ _ _ _, fun t ht => ?_⟩
  obtain ⟨e1, e2, e3, e4⟩ := hx t ht
  exact ⟨by simp only [val, e1], by simp only [absval, e2], by simp only [cost]; omega, le_rfl⟩

theorem SymV.vadd {n k : ℕ} {a A b B : ℕ → R} {tmp v : List (Expr R)} (h : SymV n k k a A tmp) (h' : SymV n 1 1 b B v) :
    SymV n (k + 1) (k + 1) (fun t => a t + b t) (fun t => A t + B t) (vadd tmp v) := by
  obtain ⟨x, rfl, hx⟩ := h
  obtain ⟨y, rfl, hy⟩ := h'
  refine ⟨_, zipWith_tab _ _ _ _, fun t ht => ?_⟩
  obtain ⟨e1, e2, e3, e4⟩ := hx t ht
  obtain ⟨f1, f2, f3, f4⟩ := hy t ht
  refine ⟨by simp only [val, e1, f1], by simp only [absval, e2, f2], ?_, ?_⟩ <;> simp only [cost, terms] <;> omega

theorem SymV.vsub {n k : ℕ} {a A b B : ℕ → R} {tmp v : List (Expr R)} (h : SymV n k k a A tmp) (h' : SymV n 1 1 b B v) :
    SymV n (k + 1) (k + 1) (fun t => a t - b t) (fun t => A t + B t) (vsub tmp v) := by
  obtain ⟨x, rfl, hx⟩ := h
  obtain ⟨y, rfl, hy⟩ := h'
  refine ⟨_, zipWith_tab _ _ _ _, fun t ht => ?_⟩
  obtain ⟨e1, e2, e3, e4⟩ := hx t ht
  obtain ⟨f1, f2, f3, f4⟩ := hy t ht
  refine ⟨by simp only [val, e1, f1]; ring, by simp only [absval, e2, f2], ?_, ?_⟩ <;> simp only [cost, terms] <;> omega

theorem SymV.roll {n k s : ℕ} (hs : 1 ≤ s) {a A : ℕ → R} {tmp : List (Expr R)} (h : SymV n k s a A tmp) :
    SymV n k s (fun t => if t = 0 then 0 else a (t - 1)) (fun t => if t = 0 then 0 else A (t - 1)) (roll1z tmp) := by
  obtain ⟨x, rfl, hx⟩ := h
  refine ⟨_, roll1z_tab _ _, fun t ht => ?_⟩
  dsimp only
  by_cases h0 : t = 0
  · rw [if_pos h0, if_pos h0, if_pos h0]
    exact ⟨rfl, abs_zero, Nat.zero_le _, hs⟩
  · rw [if_neg h0, if_neg h0, if_neg h0]
    exact hx _ (by omega)

/-- The accumulator of the cumulative sum. -/
def accum (f : ℕ → Expr R) : ℕ → Expr R
  | 0 => const 0
  | t + 1 => add (accum f t) (f t)

theorem cumsumFrom_tab (f : ℕ → Expr R) (n m : ℕ) :
    cumsumFrom (accum f m) (tab n fun t => f (m + t)) = tab n fun t => accum f (m + t + 1) := by
  induction n generalizing m with
  | zero => rfl
  | succ n ih =>
    rw [tab_succ', tab_succ', cumsumFrom]
    have e : add (accum f m) (f (m + 0)) = accum f (m + 1) := rfl
    rw [e, show (fun i => f (m + (i + 1))) = fun t => f (m + 1 + t) by funext i; congr 1; omega, ih (m + 1)]
    congr 1
    apply tab_congr; intro t _
    rw [show m + (t + 1) + 1 = m + 1 + t + 1 by omega]

theorem cumsum_tab (n : ℕ) (f : ℕ → Expr R) : cumsum (tab n f) = tab n fun t => accum f (t + 1) := by
  have := cumsumFrom_tab f n 0
  simp only [accum, Nat.zero_add] at this
  exact this

theorem accum_sym {n k : ℕ} {a A : ℕ → R} {x : ℕ → Expr R}
    (h : ∀ t < n, (x t).val = a t ∧ (x t).absval = A t ∧ (x t).cost ≤ k ∧ (x t).terms ≤ 1) (t : ℕ) (ht : t ≤ n) :
    (accum x t).val = ∑ s ∈ Finset.range t, a s ∧ (accum x t).absval = ∑ s ∈ Finset.range t, A s ∧
      (accum x t).cost ≤ k + t ∧ (accum x t).terms ≤ t + 1 := by
  induction t with
  | zero => exact ⟨by simp [accum, val], by simp [accum, absval], Nat.zero_le _, le_rfl⟩
  | succ t ih =>
    obtain ⟨i1, i2, i3, i4⟩ := ih (by omega)
    obtain ⟨e1, e2, e3, e4⟩ := h t (by omega)
    rw [Finset.sum_range_succ, Finset.sum_range_succ]
    refine ⟨by simp only [accum, val, i1, e1], by simp only [accum, absval, i2, e2], ?_, ?_⟩ <;> simp only [accum, cost, terms] <;> omega

theorem SymV.cumsum {n k : ℕ} {a A : ℕ → R} {tmp : List (Expr R)} (h : SymV n k 1 a A tmp) :
    SymV n (k + n) (n + 1) (fun t => ∑ s ∈ Finset.range (t + 1), a s) (fun t => ∑ s ∈ Finset.range (t + 1), A s) (cumsum tmp) := by
  obtain ⟨x, rfl, hx⟩ := h
  refine ⟨_, cumsum_tab _ _, fun t ht => ?_⟩
  obtain ⟨e1, e2, e3, e4⟩ := accum_sym hx (t + 1) (by omega)
  exact ⟨e1, e2, by omega, by omega⟩

theorem runMax_sym {n k s : ℕ} (hs : 1 ≤ s) {a A : ℕ → R} {x : ℕ → Expr R}
    (h : ∀ t < n, (x t).val = a t ∧ (x t).absval = A t ∧ (x t).cost ≤ k ∧ (x t).terms ≤ s) (t : ℕ) (ht : t < n) :
    (runMax x t).val = runMax a t ∧ (runMax x t).absval = runMax A t ∧ (runMax x t).cost ≤ k ∧ (runMax x t).terms ≤ s := by
  induction t with
  | zero => exact h 0 ht
  | succ t ih =>
    obtain ⟨i1, i2, i3, i4⟩ := ih (by omega)
    obtain ⟨e1, e2, e3, e4⟩ := h (t + 1) ht
    have e : runMax x (t + 1) = Expr.max (runMax x t) (x (t + 1)) := rfl
    rw [e]
    refine ⟨by simp only [val, i1, e1, runMax], by simp only [absval, i2, e2, runMax], ?_, hs⟩
    simp only [cost]; omega

theorem SymV.maxLoop {n k s : ℕ} {a A : ℕ → R} {tmp : List (Expr R)} (h : SymV n k s a A tmp) (hs : 1 ≤ s := by omega) :
    SymV n k s (runMax a) (runMax A) (Fruits.maxLoop tmp) := by
  obtain ⟨x, rfl, hx⟩ := h
  exact ⟨_, maxLoop_tab _ _, fun t ht => runMax_sym hs hx t ht⟩

theorem SymV.maxRow {n k s : ℕ} (hs : 1 ≤ s) {a A : ℕ → R} {tmp : List (Expr R)} (h : SymV n k s a A tmp) (f : ℕ → Expr R) :
    SymV n k s (runMax a) (runMax A) (maxRowLoop (tab n f) tmp) := by
  obtain ⟨x, rfl, hx⟩ := h
  exact ⟨_, maxRowLoop_tab _ _ _, fun t ht => runMax_sym hs hx t ht⟩

/-! ### letters -/

theorem SymV.mul_iter {n k s : ℕ} (hs : 1 ≤ s) {a A : ℕ → R} {tmp : List (Expr R)} (h : SymV n k s a A tmp) (y : ℕ → R) (m : ℕ) :
    SymV n (k + m) s (fun t => a t * y t ^ m) (fun t => A t * |y t ^ m|) ((fun tmp => Expr.vmul tmp (tab n y))^[m] tmp) := by
  induction m with
  | zero => exact h.of_eq le_rfl le_rfl (by simp) (by simp)
  | succ m ih =>
    rw [Function.iterate_succ_apply']
    exact (ih.vmul y).of_eq (by omega) hs (fun t _ => by rw [pow_succ]; ring) (fun t _ => by rw [pow_succ, abs_mul]; ring)

theorem SymV.div_iter {n k s : ℕ} (hs : 1 ≤ s) {a A : ℕ → R} {tmp : List (Expr R)} (h : SymV n k s a A tmp) (y : ℕ → R) (m : ℕ) :
    SymV n (k + 2 * m) s (fun t => a t * (y t)⁻¹ ^ m) (fun t => A t * |(y t)⁻¹ ^ m|) ((fun tmp => Expr.vdiv tmp (tab n y))^[m] tmp) := by
  induction m with
  | zero => exact h.of_eq le_rfl le_rfl (by simp) (by simp)
  | succ m ih =>
    rw [Function.iterate_succ_apply']
    exact (ih.vdiv y).of_eq (by omega) hs (fun t _ => by rw [pow_succ]; ring) (fun t _ => by rw [pow_succ, abs_mul]; ring)

/-- Number of operations of a letter: a division may be a reciprocal and a multiplication. -/
def occCost (e : ℤ) : ℕ := e.toNat + 2 * (-e).toNat

theorem SymV.letterMul {n k s d : ℕ} (hs : 1 ≤ s) {a A : ℕ → R} {tmp : List (Expr R)} (h : SymV n k s a A tmp) {Z : List (List R)}
    (hZ : Rect Z n) (hd : d < Z.length) (occ : ℤ) :
    SymV n (k + occCost occ) s (fun t => a t * entry Z d t ^ occ) (fun t => A t * |entry Z d t ^ occ|) (letterMul Z d occ tmp) := by
  unfold Expr.letterMul occCost
  rw [row_tab hZ hd]
  split
  · next h1 =>
    obtain ⟨m, rfl⟩ := Int.eq_ofNat_of_zero_le h1.le
    simpa using h.mul_iter hs (fun t => entry Z d t) m
  · split
    · next h1 h2 =>
      obtain ⟨m, hm⟩ := Int.eq_ofNat_of_zero_le (by omega : 0 ≤ -occ)
      have : occ = -(m : ℤ) := by omega
      subst this
      simpa using h.div_iter hs (fun t => entry Z d t) m
    · next h1 h2 =>
      have : occ = 0 := by omega
      subst this
      simpa using h

/-- Number of multiplications of an extended letter, two for every division. -/
def fcost (el : List ℤ) : ℕ := (el.map occCost).sum

theorem fcost_take {el : List ℤ} {j : ℕ} (hj : j < el.length) : fcost (el.take (j + 1)) = fcost (el.take j) + occCost el[j] := by
  unfold fcost
  rw [List.take_succ_eq_append_getElem hj, List.map_append, List.sum_append]
  simp only [List.map_cons, List.map_nil, List.sum_cons, List.sum_nil, add_zero]

theorem SymV.lettersMul {n k s : ℕ} (hs1 : 1 ≤ s) {a A : ℕ → R} {tmp : List (Expr R)} (h : SymV n k s a A tmp) {Z : List (List R)}
    (hZ : Rect Z n) {el : List ℤ} (hel : Fits Z el) :
    SymV n (k + fcost el) s (fun t => a t * monomial Z el t) (fun t => A t * |monomial Z el t|) (lettersMul Z el tmp) := by
  have := enumFold_inv (fun letter occ tmp => Expr.letterMul Z letter occ tmp)
    (fun j tmp => SymV n (k + fcost (el.take j)) s
      (fun t => a t * ∏ d ∈ Finset.range j, entry Z d t ^ (el.getD d 0))
      (fun t => A t * |∏ d ∈ Finset.range j, entry Z d t ^ (el.getD d 0)|) tmp)
    0 el tmp (by simpa [fcost] using h) (by
      intro j hj s hs
      rw [zero_add] at *
      refine (hs.letterMul hs1 hZ (by unfold Fits at hel; omega : j < Z.length) el[j]).of_eq ?_ le_rfl ?_ ?_
      · rw [fcost_take hj]; omega
      · intro t _
        rw [Finset.prod_range_succ, mul_assoc]
        simp [List.getD_eq_getElem?_getD, hj]
      · intro t _
        rw [Finset.prod_range_succ, abs_mul, mul_assoc]
        simp [List.getD_eq_getElem?_getD, hj])
  unfold Expr.lettersMul
  rw [zero_add, List.take_length] at this
  exact this

theorem SymV.lettersAdd {n k : ℕ} {a A : ℕ → R} {tmp : List (Expr R)} (h : SymV n k k a A tmp) {Z : List (List R)}
    (hZ : Rect Z n) {el : List ℤ} (hel : Fits Z el) :
    SymV n (k + el.length) (k + el.length) (fun t => a t + linform Z el t) (fun t => A t + absLinform Z el t) (lettersAdd Z el tmp) := by
  have := enumFold_inv (fun dim (e : ℤ) tmp => Expr.vadd tmp ((row Z dim).map fun x => Expr.mul (const (e : R)) (const x)))
    (fun j tmp => SymV n (k + j) (k + j)
      (fun t => a t + ∑ d ∈ Finset.range j, (el.getD d 0 : R) * entry Z d t)
      (fun t => A t + ∑ d ∈ Finset.range j, |(el.getD d 0 : R) * entry Z d t|) tmp)
    0 el tmp (by simpa using h) (by
      intro j hj s hs
      rw [zero_add] at *
      have hp : SymV n 1 1 (fun t => (el[j] : R) * entry Z j t) (fun t => |(el[j] : R) * entry Z j t|)
          ((row Z j).map fun x => Expr.mul (const (el[j] : R)) (const x)) := by
        rw [row_tab hZ (by unfold Fits at hel; omega), map_tab]
        exact ⟨_, rfl, fun t _ => ⟨rfl, by simp only [absval, abs_mul], le_rfl, le_rfl⟩⟩
      refine (hs.vadd hp).of_eq (by omega) (by omega) ?_ ?_
      · intro t _
        rw [Finset.sum_range_succ, add_assoc]
        simp [List.getD_eq_getElem?_getD, hj]
      · intro t _
        rw [Finset.sum_range_succ, add_assoc]
        simp [List.getD_eq_getElem?_getD, hj])
  unfold Expr.lettersAdd
  simpa [linform, absLinform] using this

/-! ### the loop over the extended letters -/

/-- Loop rule: `P k` holds for `tmp` before iteration `k`, `Q k` for the row of the prefix with `k + 1` extended letters. -/
theorem kernel_inv' {E : Type} {α : Type*} (word : List α) (ext : ℕ) (he : ext ≤ word.length)
    (P Q : ℕ → List E → Prop) (B : List E)
    (f : ℕ → α → List E × List (List E) → List E × List (List E)) (tmp0 : List E)
    (h0 : word ≠ [] → P 0 tmp0)
    (hstep : ∀ k (hk : k < word.length) tmp res, P k tmp →
      (word.length - k ≤ ext → res.getD (ext - (word.length - k)) [] = B) →
      ∃ tmp' v, f k word[k] (tmp, res) =
        (tmp', if word.length - k ≤ ext then res.set (ext - (word.length - k)) v else res) ∧
        (word.length - k ≤ ext → Q k v) ∧ (k + 1 < word.length → P (k + 1) tmp')) :
    (enumFold f 0 word (tmp0, List.replicate ext B)).2.length = ext ∧
      ∀ r < ext, Q (word.length - ext + r) ((enumFold f 0 word (tmp0, List.replicate ext B)).2.getD r []) := by
  have := enumFold_inv f (fun k s => (k < word.length → P k s.1) ∧ s.2.length = ext ∧
      ∀ r < ext, (word.length - ext + r < k → Q (word.length - ext + r) (s.2.getD r [])) ∧
        (k ≤ word.length - ext + r → s.2.getD r [] = B)) 0 word (tmp0, List.replicate ext B)
    ⟨fun h => h0 (by intro h'; simp [h'] at h), by simp, fun r hr =>
      ⟨fun h => absurd h (by omega), fun _ => by simp [List.getD_eq_getElem?_getD, hr]⟩⟩ (by
      rintro j hj ⟨tmp, res⟩ ⟨h1, h2, h3⟩
      simp only [zero_add] at *
      obtain ⟨tmp', v, e, hv, ht⟩ := hstep j hj tmp res (h1 hj) (fun h => (h3 _ (by omega)).2 (by omega))
      rw [e]
      refine ⟨ht, ?_, ?_⟩
      · dsimp only; split <;> simp [h2]
      · intro r hr
        dsimp only
        by_cases hs : word.length - j ≤ ext
        · rw [if_pos hs]
          by_cases hr' : r = ext - (word.length - j)
          · subst hr'
            rw [show word.length - ext + (ext - (word.length - j)) = j by omega]
            refine ⟨fun _ => ?_, fun h => absurd h (by omega)⟩
            rw [List.getD_eq_getElem?_getD, List.getElem?_set_self (by omega)]
            exact hv hs
          · rw [List.getD_eq_getElem?_getD, List.getElem?_set_ne (by omega), ← List.getD_eq_getElem?_getD]
            exact ⟨fun h => (h3 r hr).1 (by omega), fun h => (h3 r hr).2 (by omega)⟩
        · rw [if_neg hs]
          exact ⟨fun h => (h3 r hr).1 (by omega), fun h => (h3 r hr).2 (by omega)⟩)
  rw [zero_add] at this
  exact ⟨this.2.1, fun r hr => (this.2.2 r hr).1 (by omega)⟩

theorem expW_tab (m : R → R) {weights : List R} {n : ℕ} (hw : weights.length = n) (a : R) :
    expW m weights a = tab n (fun t => m (weights.getD t 0 * a)) := by
  have : weights = tab n (fun t => weights.getD t 0) := by rw [← hw]; exact tab_of_list _ _
  conv_lhs => rw [this]
  simp [expW]

theorem expNegW_tab (m : R → R) {weights : List R} {n : ℕ} (hw : weights.length = n) (a : R) :
    expNegW m weights a = tab n (fun t => m (-weights.getD t 0 * a)) := by
  have : weights = tab n (fun t => weights.getD t 0) := by rw [← hw]; exact tab_of_list _ _
  conv_lhs => rw [this]
  simp [expNegW]

theorem vscale_sym {weights : List R} {n : ℕ} (hw : weights.length = n) (a : R) :
    SymV n 1 1 (fun t => weights.getD t 0 * a) (fun t => |weights.getD t 0 * a|) (vscale weights a) := by
  have : weights = tab n (fun t => weights.getD t 0) := by rw [← hw]; exact tab_of_list _ _
  conv => rw [this]
  refine ⟨fun t => mul (const (weights.getD t 0)) (const a), by simp [vscale], fun t ht => ?_⟩
  dsimp only
  rw [tab_getD _ _ _ _ ht]
  exact ⟨rfl, by simp only [absval, abs_mul], le_rfl, le_rfl⟩

theorem symV_const (n k s : ℕ) (hs : 1 ≤ s) (c : R) : SymV n k s (fun _ => c) (fun _ => |c|) (List.replicate n (const c)) :=
  ⟨_, replicate_eq_tab _ _, fun _ _ => ⟨rfl, rfl, Nat.zero_le _, hs⟩⟩

/-- Number of operations behind an entry of the row of a word (multiplicative kernels). -/
def fmulCost (m : ℕ) (word : List (List ℤ)) : ℕ := (word.map fun el => fcost el + m + 2).sum

theorem fmulCost_take (m : ℕ) {word : List (List ℤ)} {k : ℕ} (hk : k < word.length) :
    fmulCost m (word.take (k + 1)) = fmulCost m (word.take k) + (fcost word[k] + m + 2) := by
  unfold fmulCost
  rw [List.take_succ_eq_append_getElem hk, List.map_append, List.sum_append]
  simp only [List.map_cons, List.map_nil, List.sum_cons, List.sum_nil, add_zero]

variable {Z : List (List R)} {n : ℕ} {word : List (List ℤ)} {weights : List R} {ext : ℕ}

theorem totalReals_sym (m : R → R) (hZ : Rect Z n) (hne : Z ≠ []) (hfit : ∀ el ∈ word, Fits Z el)
    (alpha : List R) (hw : weights.length = n) (he : ext ≤ word.length) :
    (totalReals m Z word alpha weights ext).length = ext ∧ ∀ r < ext,
      SymV n (fmulCost n (word.take (word.length - ext + r + 1))) 1
        (fun t => incSum (aW m (monos Z word) (alpha.getD · 0) (weights.getD · 0))
            (word.length - ext + r + 1) (t + 1) * m (-weights.getD t 0 * alpha.getD (word.length - ext + r) 0))
        (fun t => incSum (fun j s => |aW m (monos Z word) (alpha.getD · 0) (weights.getD · 0) j s|)
            (word.length - ext + r + 1) (t + 1) * |m (-weights.getD t 0 * alpha.getD (word.length - ext + r) 0)|)
        ((totalReals m Z word alpha weights ext).getD r []) := by
  set a := aW m (monos Z word) (alpha.getD · 0) (weights.getD · 0) with ha
  set b : ℕ → ℕ → R := fun j s => |a j s| with hb
  unfold Expr.totalReals
  rw [ncols_eq hZ hne]
  refine kernel_inv' word ext he
    (fun k => SymV n (fmulCost n (word.take k)) 1
      (fun t => incSum a k t * (if k = 0 then 1 else m (-weights.getD t 0 * alpha.getD (k - 1) 0)))
      (fun t => incSum b k t * |if k = 0 then 1 else m (-weights.getD t 0 * alpha.getD (k - 1) 0)|))
    (fun k => SymV n (fmulCost n (word.take (k + 1))) 1
      (fun t => incSum a (k + 1) (t + 1) * m (-weights.getD t 0 * alpha.getD k 0))
      (fun t => incSum b (k + 1) (t + 1) * |m (-weights.getD t 0 * alpha.getD k 0)|))
    (zeros n) _ _ (fun _ => (symV_const n _ _ le_rfl 1).of_eq le_rfl le_rfl (by simp) (by simp)) ?_
  intro k hk tmp res hP _
  have hfk := hfit _ (List.getElem_mem hk)
  have key : SymV n (fmulCost n (word.take k) + fcost word[k] + 1 + n) (n + 1)
      (fun t => incSum a (k + 1) (t + 1)) (fun t => incSum b (k + 1) (t + 1))
      (Expr.cumsum (Expr.vmul (Expr.lettersMul Z word[k] tmp) (expW m weights (alpha.getD k 0)))) := by
    rw [expW_tab m hw]
    refine ((hP.lettersMul (by omega) hZ hfk).vmul _).cumsum.of_eq le_rfl le_rfl ?_ ?_
    · intro t _
      rw [incSum_succ]
      apply Finset.sum_congr rfl
      intro s _
      rw [monos_at']
      simp only [ha, aW]
      ring
    · intro t _
      rw [incSum_succ]
      apply Finset.sum_congr rfl
      intro s _
      rw [monos_at' hk]
      simp only [hb, ha, abs_aW, apply_ite abs, abs_one]
      ring
  refine ⟨_, _, rfl, ?_, ?_⟩
  · intro _
    simp only
    rw [expNegW_tab m hw]
    refine (key.vmul _).of_eq ?_ le_rfl (fun _ _ => rfl) (fun _ _ => rfl)
    rw [fmulCost_take n hk]; omega
  · intro hk'
    simp only
    rw [if_pos (by omega), expNegW_tab m hw]
    have z : ∀ c : ℕ → ℕ → R, incSum c (k + 1) 0 = 0 := fun c => by rw [incSum_succ]; simp
    refine ((key.roll (by omega)).vmul _).of_eq ?_ le_rfl ?_ ?_
    · rw [fmulCost_take n hk]; omega
    · intro t _
      rw [if_neg (by omega : k + 1 ≠ 0)]
      rcases Nat.eq_zero_or_pos t with rfl | ht
      · simp [z]
      · rw [if_neg ht.ne', show t - 1 + 1 = t by omega]; rfl
    · intro t _
      rw [if_neg (by omega : k + 1 ≠ 0)]
      rcases Nat.eq_zero_or_pos t with rfl | ht
      · simp [z]
      · rw [if_neg ht.ne', show t - 1 + 1 = t by omega]; rfl

theorem realsSingle_sym (m : R → R) (hZ : Rect Z n) (hne : Z ≠ []) (hfit : ∀ el ∈ word, Fits Z el)
    (alpha : List R) (hw : weights.length = n) (he : ext ≤ word.length) :
    (realsSingle m Z word alpha weights ext).length = ext ∧ ∀ r < ext,
      SymV n (fmulCost n (word.take (word.length - ext + r + 1))) (n + 1)
        (fun t => ∑ s ∈ Finset.range (t + 1),
          incSum (aW m (monos Z word) (alpha.getD · 0) (weights.getD · 0)) (word.length - ext + r) s
          * (monos Z word (word.length - ext + r) s * (if word.length - ext + r = 0 then 1
            else m (-weights.getD s 0 * alpha.getD (word.length - ext + r - 1) 0))))
        (fun t => ∑ s ∈ Finset.range (t + 1),
          incSum (fun j s => |aW m (monos Z word) (alpha.getD · 0) (weights.getD · 0) j s|)
            (word.length - ext + r) s
          * |monos Z word (word.length - ext + r) s * (if word.length - ext + r = 0 then 1
            else m (-weights.getD s 0 * alpha.getD (word.length - ext + r - 1) 0))|)
        ((realsSingle m Z word alpha weights ext).getD r []) := by
  set a := aW m (monos Z word) (alpha.getD · 0) (weights.getD · 0) with ha
  set b : ℕ → ℕ → R := fun j s => |a j s| with hb
  unfold Expr.realsSingle
  rw [ncols_eq hZ hne]
  refine kernel_inv' word ext he
    (fun k => SymV n (fmulCost n (word.take k)) (if k = 0 then 1 else n + 1)
      (fun t => if k = 0 then 1 else incSum a k (t + 1)) (fun t => if k = 0 then 1 else incSum b k (t + 1)))
    (fun k => SymV n (fmulCost n (word.take (k + 1))) (n + 1)
      (fun t => ∑ s ∈ Finset.range (t + 1), incSum a k s * (monos Z word k s *
          (if k = 0 then 1 else m (-weights.getD s 0 * alpha.getD (k - 1) 0))))
      (fun t => ∑ s ∈ Finset.range (t + 1), incSum b k s * |monos Z word k s *
          (if k = 0 then 1 else m (-weights.getD s 0 * alpha.getD (k - 1) 0))|))
    (zeros n) _ _ (fun _ => (symV_const n _ _ (by simp) 1).of_eq le_rfl le_rfl (by simp) (by simp)) ?_
  intro k hk tmp res hP _
  have hfk := hfit _ (List.getElem_mem hk)
  have key : SymV n (fmulCost n (word.take k) + fcost word[k] + 1) 1
      (fun s => incSum a k s * (monos Z word k s *
          (if k = 0 then 1 else m (-weights.getD s 0 * alpha.getD (k - 1) 0))))
      (fun s => incSum b k s * |monos Z word k s *
          (if k = 0 then 1 else m (-weights.getD s 0 * alpha.getD (k - 1) 0))|)
      (let tmp := if k > 0 then roll1z tmp else tmp
      let tmp := Expr.lettersMul Z word[k] tmp
      if k > 0 then Expr.vmul tmp (expNegW m weights (alpha.getD (k - 1) 0)) else tmp) := by
    rcases Nat.eq_zero_or_pos k with rfl | h0
    · simp only [gt_iff_lt, lt_irrefl, if_false, if_true] at hP ⊢
      refine (hP.lettersMul (by omega) hZ hfk).of_eq (by omega) le_rfl ?_ ?_ <;>
      · intro t _
        rw [monos_at']; simp
    · simp only [gt_iff_lt, h0, if_true, h0.ne', if_false] at hP ⊢
      rw [expNegW_tab m hw]
      have z : ∀ c : ℕ → ℕ → R, incSum c k 0 = 0 := fun c => by
        obtain ⟨j, rfl⟩ : ∃ j, k = j + 1 := ⟨k - 1, by omega⟩
        rw [incSum_succ]; simp
      refine (((hP.roll (by omega)).lettersMul (by omega) hZ hfk).vmul _).of_eq le_rfl le_rfl ?_ ?_
      · intro t _
        rw [monos_at']
        rcases Nat.eq_zero_or_pos t with rfl | ht
        · simp [z]
        · rw [if_neg ht.ne', show t - 1 + 1 = t by omega]; ring
      · intro t _
        rw [monos_at', abs_mul]
        rcases Nat.eq_zero_or_pos t with rfl | ht
        · simp [z]
        · rw [if_neg ht.ne', show t - 1 + 1 = t by omega]; ring
  refine ⟨_, _, rfl, ?_, ?_⟩
  · intro _
    refine key.cumsum.of_eq ?_ le_rfl (fun _ _ => rfl) (fun _ _ => rfl)
    rw [fmulCost_take n hk]; omega
  · intro hk'
    simp only at key ⊢
    rw [if_pos (by omega : k < word.length - 1), expW_tab m hw]
    refine (key.vmul _).cumsum.of_eq ?_ (by simp) ?_ ?_
    · rw [fmulCost_take n hk]; omega
    · intro t _
      rw [if_neg (by omega), incSum_succ]
      apply Finset.sum_congr rfl
      intro s _
      simp only [ha, aW]
      ring
    · intro t _
      rw [if_neg (by omega), incSum_succ]
      apply Finset.sum_congr rfl
      intro s _
      simp only [hb, ha, abs_aW, abs_mul, apply_ite abs, abs_one]
      ring

theorem totalArctic_sym (hZ : Rect Z n) (hne : Z ≠ []) (hfit : ∀ el ∈ word, Fits Z el)
    (alpha : List R) (hw : weights.length = n) (he : ext ≤ word.length) :
    (totalArctic Z word alpha weights ext).length = ext ∧ ∀ r < ext,
      SymV n (addCost (word.take (word.length - ext + r + 1))) (addCost (word.take (word.length - ext + r + 1)))
        (fun t => chainMax (· + ·) 0 (aP (lins Z word) (alpha.getD · 0) (weights.getD · 0))
            (word.length - ext + r + 1) t - weights.getD t 0 * alpha.getD (word.length - ext + r) 0)
        (fun t => chainMax (· + ·) 0 (absP (absLins Z word) (alpha.getD · 0) (weights.getD · 0))
            (word.length - ext + r + 1) t + |weights.getD t 0 * alpha.getD (word.length - ext + r) 0|)
        ((totalArctic Z word alpha weights ext).getD r []) := by
  set a := aP (lins Z word) (alpha.getD · 0) (weights.getD · 0) with ha
  set b := absP (absLins Z word) (alpha.getD · 0) (weights.getD · 0) with hb
  unfold Expr.totalArctic
  rw [ncols_eq hZ hne]
  refine kernel_inv' word ext he
    (fun k => SymV n (addCost (word.take k)) (addCost (word.take k))
      (fun t => chainMax (· + ·) 0 a k t - (if k = 0 then 0 else weights.getD t 0 * alpha.getD (k - 1) 0))
      (fun t => chainMax (· + ·) 0 b k t + (if k = 0 then 0 else |weights.getD t 0 * alpha.getD (k - 1) 0|)))
    (fun k => SymV n (addCost (word.take (k + 1))) (addCost (word.take (k + 1)))
      (fun t => chainMax (· + ·) 0 a (k + 1) t - weights.getD t 0 * alpha.getD k 0)
      (fun t => chainMax (· + ·) 0 b (k + 1) t + |weights.getD t 0 * alpha.getD k 0|))
    (zeros n) _ _ (fun _ => (symV_const n _ _ (by unfold addCost; omega) 0).of_eq le_rfl le_rfl (by simp [chainMax]) (by simp [chainMax])) ?_
  intro k hk tmp res hP _
  have hfk := hfit _ (List.getElem_mem hk)
  obtain ⟨c, hc⟩ : ∃ c, addCost (word.take k) = c + 1 := ⟨_, Nat.add_comm _ _⟩
  rw [hc] at hP
  have key : SymV n (c + 1 + word[k].length + 1) (c + 1 + word[k].length + 1)
      (fun t => chainMax (· + ·) 0 a (k + 1) t) (fun t => chainMax (· + ·) 0 b (k + 1) t)
      (Fruits.maxLoop (Expr.vadd (Expr.lettersAdd Z word[k] tmp) (Expr.vscale weights (alpha.getD k 0)))) := by
    have hv := vscale_sym hw (alpha.getD k 0)
    refine ((hP.lettersAdd hZ hfk).vadd hv).maxLoop.of_eq le_rfl le_rfl ?_ ?_
    · intro t _
      rw [chainMax]
      congr 1
      funext s
      rw [lins_at']
      simp only [ha, aP]
      ring
    · intro t _
      rw [chainMax]
      congr 1
      funext s
      rw [absLins_at]
      simp only [hb, absP]
      ring
  refine ⟨_, _, rfl, ?_, ?_⟩
  · intro _
    have hv := vscale_sym hw (alpha.getD k 0)
    refine (key.vsub hv).of_eq ?_ ?_ (fun _ _ => rfl) (fun _ _ => rfl)
    · rw [addCost_take hk]; omega
    · rw [addCost_take hk]; omega
  · intro hk'
    simp only
    rw [if_pos (by omega)]
    have hv := vscale_sym hw (alpha.getD k 0)
    refine (key.vsub hv).of_eq ?_ ?_ ?_ ?_
    · rw [addCost_take hk]; omega
    · rw [addCost_take hk]; omega
    · intro t _
      rw [if_neg (by omega : k + 1 ≠ 0)]; rfl
    · intro t _
      rw [if_neg (by omega : k + 1 ≠ 0)]; rfl

theorem arcticSingle_sym (hZ : Rect Z n) (hne : Z ≠ []) (hfit : ∀ el ∈ word, Fits Z el)
    (alpha : List R) (hw : weights.length = n) (he : ext ≤ word.length) :
    (arcticSingle Z word alpha weights ext).length = ext ∧ ∀ r < ext,
      SymV n (addCost (word.take (word.length - ext + r + 1))) (addCost (word.take (word.length - ext + r + 1)))
        (runMax fun s => chainMax (· + ·) 0 (aP (lins Z word) (alpha.getD · 0) (weights.getD · 0))
            (word.length - ext + r) s + (lins Z word (word.length - ext + r) s -
              (if word.length - ext + r = 0 then 0
                else weights.getD s 0 * alpha.getD (word.length - ext + r - 1) 0)))
        (runMax fun s => chainMax (· + ·) 0 (absP (absLins Z word) (alpha.getD · 0) (weights.getD · 0))
            (word.length - ext + r) s + (absLins Z word (word.length - ext + r) s +
              (if word.length - ext + r = 0 then 0
                else |weights.getD s 0 * alpha.getD (word.length - ext + r - 1) 0|)))
        ((arcticSingle Z word alpha weights ext).getD r []) := by
  set a := aP (lins Z word) (alpha.getD · 0) (weights.getD · 0) with ha
  set b := absP (absLins Z word) (alpha.getD · 0) (weights.getD · 0) with hb
  unfold Expr.arcticSingle
  rw [ncols_eq hZ hne]
  refine kernel_inv' word ext he
    (fun k => SymV n (addCost (word.take k)) (addCost (word.take k)) (fun t => chainMax (· + ·) 0 a k t)
      (fun t => chainMax (· + ·) 0 b k t))
    (fun k => SymV n (addCost (word.take (k + 1))) (addCost (word.take (k + 1)))
      (runMax fun s => chainMax (· + ·) 0 a k s + (lins Z word k s -
          (if k = 0 then 0 else weights.getD s 0 * alpha.getD (k - 1) 0)))
      (runMax fun s => chainMax (· + ·) 0 b k s + (absLins Z word k s +
          (if k = 0 then 0 else |weights.getD s 0 * alpha.getD (k - 1) 0|))))
    (zeros n) _ _ (fun _ => (symV_const n _ _ (by unfold addCost; omega) 0).of_eq le_rfl le_rfl (by simp [chainMax]) (by simp [chainMax])) ?_
  intro k hk tmp res hP hres
  have hfk := hfit _ (List.getElem_mem hk)
  obtain ⟨c, hc⟩ : ∃ c, addCost (word.take k) = c + 1 := ⟨_, Nat.add_comm _ _⟩
  rw [hc] at hP
  have key : SymV n (c + 1 + word[k].length + 1) (c + 1 + word[k].length + 1)
      (fun s => chainMax (· + ·) 0 a k s + (lins Z word k s -
          (if k = 0 then 0 else weights.getD s 0 * alpha.getD (k - 1) 0)))
      (fun s => chainMax (· + ·) 0 b k s + (absLins Z word k s +
          (if k = 0 then 0 else |weights.getD s 0 * alpha.getD (k - 1) 0|)))
      (let tmp := Expr.lettersAdd Z word[k] tmp
      if k > 0 then Expr.vsub tmp (Expr.vscale weights (alpha.getD (k - 1) 0)) else tmp) := by
    rcases Nat.eq_zero_or_pos k with rfl | h0
    · simp only [gt_iff_lt, lt_irrefl, if_false, if_true]
      refine (hP.lettersAdd hZ hfk).of_eq (by omega) (by omega) ?_ ?_
      · intro t _
        rw [lins_at']; simp
      · intro t _
        rw [absLins_at]; simp
    · simp only [gt_iff_lt, h0, if_true, h0.ne', if_false]
      have hv := vscale_sym hw (alpha.getD (k - 1) 0)
      refine ((hP.lettersAdd hZ hfk).vsub hv).of_eq le_rfl le_rfl ?_ ?_
      · intro t _
        rw [lins_at']; ring
      · intro t _
        rw [absLins_at]; ring
  refine ⟨_, _, rfl, ?_, ?_⟩
  · intro h
    simp only at key ⊢
    rw [hres h, Expr.zeros, replicate_eq_tab]
    refine (key.maxRow (by omega) _).of_eq ?_ ?_ (fun _ _ => rfl) (fun _ _ => rfl)
    · rw [addCost_take hk]; omega
    · rw [addCost_take hk]; omega
  · intro hk'
    simp only at key ⊢
    rw [if_pos (by omega)]
    have hv := vscale_sym hw (alpha.getD k 0)
    refine (key.vadd hv).maxLoop.of_eq ?_ ?_ ?_ ?_
    · rw [addCost_take hk]; omega
    · rw [addCost_take hk]; omega
    · intro t _
      rw [chainMax]
      congr 1
      funext s
      simp only [ha, aP]
      ring
    · intro t _
      rw [chainMax]
      congr 1
      funext s
      simp only [hb, absP]
      ring

theorem totalBayesian_sym (m : R → R) (hZ : Rect Z n) (hne : Z ≠ []) (hfit : ∀ el ∈ word, Fits Z el)
    (alpha : List R) (hw : weights.length = n) (he : ext ≤ word.length) :
    (totalBayesian m Z word alpha weights ext).length = ext ∧ ∀ r < ext,
      SymV n (fmulCost 0 (word.take (word.length - ext + r + 1))) 1
        (fun t => chainMax (· * ·) 1 (aW m (monos Z word) (alpha.getD · 0) (weights.getD · 0))
            (word.length - ext + r + 1) t * m (-weights.getD t 0 * alpha.getD (word.length - ext + r) 0))
        (fun t => chainMax (· * ·) 1
            (fun j s => |aW m (monos Z word) (alpha.getD · 0) (weights.getD · 0) j s|)
            (word.length - ext + r + 1) t * |m (-weights.getD t 0 * alpha.getD (word.length - ext + r) 0)|)
        ((totalBayesian m Z word alpha weights ext).getD r []) := by
  set a := aW m (monos Z word) (alpha.getD · 0) (weights.getD · 0) with ha
  set b : ℕ → ℕ → R := fun j s => |a j s| with hb
  unfold Expr.totalBayesian
  rw [ncols_eq hZ hne]
  refine kernel_inv' word ext he
    (fun k => SymV n (fmulCost 0 (word.take k)) 1
      (fun t => chainMax (· * ·) 1 a k t * (if k = 0 then 1 else m (-weights.getD t 0 * alpha.getD (k - 1) 0)))
      (fun t => chainMax (· * ·) 1 b k t * |if k = 0 then 1 else m (-weights.getD t 0 * alpha.getD (k - 1) 0)|))
    (fun k => SymV n (fmulCost 0 (word.take (k + 1))) 1
      (fun t => chainMax (· * ·) 1 a (k + 1) t * m (-weights.getD t 0 * alpha.getD k 0))
      (fun t => chainMax (· * ·) 1 b (k + 1) t * |m (-weights.getD t 0 * alpha.getD k 0)|))
    (zeros n) _ _ (fun _ => (symV_const n _ _ le_rfl 1).of_eq le_rfl le_rfl (by simp [chainMax]) (by simp [chainMax])) ?_
  intro k hk tmp res hP _
  have hfk := hfit _ (List.getElem_mem hk)
  have key : SymV n (fmulCost 0 (word.take k) + fcost word[k] + 1) 1
      (fun t => chainMax (· * ·) 1 a (k + 1) t) (fun t => chainMax (· * ·) 1 b (k + 1) t)
      (Fruits.maxLoop (Expr.vmul (Expr.lettersMul Z word[k] tmp) (expW m weights (alpha.getD k 0)))) := by
    rw [expW_tab m hw]
    refine ((hP.lettersMul (by omega) hZ hfk).vmul _).maxLoop.of_eq le_rfl le_rfl ?_ ?_
    · intro t _
      rw [chainMax]
      congr 1
      funext s
      rw [monos_at']
      simp only [ha, aW]
      ring
    · intro t _
      rw [chainMax]
      congr 1
      funext s
      rw [monos_at' hk]
      simp only [hb, ha, abs_aW, apply_ite abs, abs_one]
      ring
  refine ⟨_, _, rfl, ?_, ?_⟩
  · intro _
    simp only
    rw [expNegW_tab m hw]
    refine (key.vmul _).of_eq ?_ le_rfl (fun _ _ => rfl) (fun _ _ => rfl)
    rw [fmulCost_take 0 hk]; omega
  · intro hk'
    simp only
    rw [if_pos (by omega), expNegW_tab m hw]
    refine (key.vmul _).of_eq ?_ le_rfl ?_ ?_
    · rw [fmulCost_take 0 hk]; omega
    · intro t _
      rw [if_neg (by omega : k + 1 ≠ 0)]; rfl
    · intro t _
      rw [if_neg (by omega : k + 1 ≠ 0)]; rfl

theorem bayesianSingle_sym (m : R → R) (hZ : Rect Z n) (hne : Z ≠ []) (hfit : ∀ el ∈ word, Fits Z el)
    (alpha : List R) (hw : weights.length = n) (he : ext ≤ word.length) :
    (bayesianSingle m Z word alpha weights ext).length = ext ∧ ∀ r < ext,
      SymV n (fmulCost 0 (word.take (word.length - ext + r + 1))) 1
        (runMax fun s => chainMax (· * ·) 1 (aW m (monos Z word) (alpha.getD · 0) (weights.getD · 0))
            (word.length - ext + r) s * (monos Z word (word.length - ext + r) s *
              (if word.length - ext + r = 0 then 1
                else m (-weights.getD s 0 * alpha.getD (word.length - ext + r - 1) 0))))
        (runMax fun s => chainMax (· * ·) 1
            (fun j s => |aW m (monos Z word) (alpha.getD · 0) (weights.getD · 0) j s|)
            (word.length - ext + r) s * |monos Z word (word.length - ext + r) s *
              (if word.length - ext + r = 0 then 1
                else m (-weights.getD s 0 * alpha.getD (word.length - ext + r - 1) 0))|)
        ((bayesianSingle m Z word alpha weights ext).getD r []) := by
  set a := aW m (monos Z word) (alpha.getD · 0) (weights.getD · 0) with ha
  set b : ℕ → ℕ → R := fun j s => |a j s| with hb
  unfold Expr.bayesianSingle
  rw [ncols_eq hZ hne]
  refine kernel_inv' word ext he
    (fun k => SymV n (fmulCost 0 (word.take k)) 1 (fun t => chainMax (· * ·) 1 a k t)
      (fun t => chainMax (· * ·) 1 b k t))
    (fun k => SymV n (fmulCost 0 (word.take (k + 1))) 1
      (runMax fun s => chainMax (· * ·) 1 a k s * (monos Z word k s *
          (if k = 0 then 1 else m (-weights.getD s 0 * alpha.getD (k - 1) 0))))
      (runMax fun s => chainMax (· * ·) 1 b k s * |monos Z word k s *
          (if k = 0 then 1 else m (-weights.getD s 0 * alpha.getD (k - 1) 0))|))
    (ones n) _ _ (fun _ => (symV_const n _ _ le_rfl 1).of_eq le_rfl le_rfl (by simp [chainMax]) (by simp [chainMax])) ?_
  intro k hk tmp res hP hres
  have hfk := hfit _ (List.getElem_mem hk)
  have key : SymV n (fmulCost 0 (word.take k) + fcost word[k] + 1) 1
      (fun s => chainMax (· * ·) 1 a k s * (monos Z word k s *
          (if k = 0 then 1 else m (-weights.getD s 0 * alpha.getD (k - 1) 0))))
      (fun s => chainMax (· * ·) 1 b k s * |monos Z word k s *
          (if k = 0 then 1 else m (-weights.getD s 0 * alpha.getD (k - 1) 0))|)
      (let tmp := Expr.lettersMul Z word[k] tmp
      if k > 0 then Expr.vmul tmp (expNegW m weights (alpha.getD (k - 1) 0)) else tmp) := by
    rcases Nat.eq_zero_or_pos k with rfl | h0
    · simp only [gt_iff_lt, lt_irrefl, if_false, if_true]
      refine (hP.lettersMul (by omega) hZ hfk).of_eq (by omega) le_rfl ?_ ?_ <;>
      · intro t _
        rw [monos_at']; simp
    · simp only [gt_iff_lt, h0, if_true, h0.ne', if_false]
      rw [expNegW_tab m hw]
      refine ((hP.lettersMul (by omega) hZ hfk).vmul _).of_eq le_rfl le_rfl ?_ ?_
      · intro t _
        rw [monos_at']; ring
      · intro t _
        rw [monos_at', abs_mul]; ring
  refine ⟨_, _, rfl, ?_, ?_⟩
  · intro h
    simp only at key ⊢
    rw [hres h, Expr.ones, replicate_eq_tab]
    refine (key.maxRow (by omega) _).of_eq ?_ le_rfl (fun _ _ => rfl) (fun _ _ => rfl)
    rw [fmulCost_take 0 hk]; omega
  · intro hk'
    simp only at key ⊢
    rw [if_pos (by omega), expW_tab m hw]
    refine (key.vmul _).maxLoop.of_eq ?_ le_rfl ?_ ?_
    · rw [fmulCost_take 0 hk]; omega
    · intro t _
      rw [chainMax]
      congr 1
      funext s
      simp only [ha, aW]
      ring
    · intro t _
      rw [chainMax]
      congr 1
      funext s
      simp only [hb, ha, abs_aW, abs_mul, apply_ite abs, abs_one]
      ring

end Expr
end Fruits
