import Verif.Props.FastMath1
import Verif.RoundedBinary

/-! # C160: integers are exact, results are reproducible -/

namespace Fruits
set_option linter.unusedSectionVars false
variable {R : Type} [Field R] [LinearOrder R] [IsStrictOrderedRing R] [FloorRing R]

/-- `x` is an integer. -/
def IsInteger (x : R) : Prop := ∃ z : ℤ, (z : R) = x

/-- All integers up to `B` in absolute value are numbers of the format. -/
def Fp.Integers (F : Fp R) (B : R) : Prop := ∀ z : ℤ, |(z : R)| ≤ B → F.rnd z = z

theorem IsInteger.zero : IsInteger (0 : R) := ⟨0, by simp⟩
theorem IsInteger.one : IsInteger (1 : R) := ⟨1, by simp⟩
theorem IsInteger.add {x y : R} : IsInteger x → IsInteger y → IsInteger (x + y)
  | ⟨a, ha⟩, ⟨b, hb⟩ => ⟨a + b, by push_cast; rw [ha, hb]⟩
theorem IsInteger.mul {x y : R} : IsInteger x → IsInteger y → IsInteger (x * y)
  | ⟨a, ha⟩, ⟨b, hb⟩ => ⟨a * b, by push_cast; rw [ha, hb]⟩
theorem IsInteger.neg {x : R} : IsInteger x → IsInteger (-x)
  | ⟨a, ha⟩ => ⟨-a, by push_cast; rw [ha]⟩
theorem IsInteger.max {x y : R} (hx : IsInteger x) (hy : IsInteger y) : IsInteger (max x y) := by
  rcases le_total x y with h | h
  · rwa [max_eq_right h]
  · rwa [max_eq_left h]
theorem IsInteger.abs {x : R} (hx : IsInteger x) : IsInteger |x| := IsInteger.max hx hx.neg

theorem IsInteger.one_le {x : R} (hx : IsInteger x) (h : 0 < x) : 1 ≤ x := by
  obtain ⟨z, rfl⟩ := hx
  have : 0 < z := by exact_mod_cast h
  exact_mod_cast this

/-- Binary floating point with `p + 1` significant bits represents all integers up to `2^(p+1)`. -/
theorem Fp.binary_integers (p : ℕ) : (Fp.binary p : Fp R).Integers (2 ^ (p + 1)) := by
  have key : ∀ z : ℤ, 0 < z → (z : R) ≤ 2 ^ (p + 1) → rndPos p (z : R) = z := by
    intro z hz hle
    have hz' : (0 : R) < z := by exact_mod_cast hz
    have h1 : (1 : R) ≤ z := by exact_mod_cast hz
    have hd : ∃ q : ℤ, (z : R) / ulp p (z : R) = q := by
      rcases hle.lt_or_eq with h | h
      · have hl : Int.log 2 (z : R) ≤ p := by
          by_contra hc
          have := log_le hz'
          have h2 : (2 : R) ^ ((p + 1 : ℕ) : ℤ) ≤ 2 ^ Int.log 2 (z : R) := two_pow_le (by push_cast; omega)
          rw [zpow_natCast] at h2
          linarith
        refine ⟨z * 2 ^ ((p : ℤ) - Int.log 2 (z : R)).toNat, ?_⟩
        rw [ulp, div_eq_mul_inv, ← zpow_neg]
        push_cast
        congr 1
        rw [← zpow_natCast, Int.toNat_of_nonneg (by omega)]
        congr 1; ring
      · have hl : Int.log 2 (z : R) = ((p + 1 : ℕ) : ℤ) := by
          rw [h, show (2 : R) ^ (p + 1) = ((2 : ℕ) : R) ^ ((p + 1 : ℕ) : ℤ) by rw [zpow_natCast]; norm_num]
          exact Int.log_zpow one_lt_two _
        refine ⟨2 ^ p, ?_⟩
        rw [ulp, hl, show (((p + 1 : ℕ) : ℤ) - (p : ℤ)) = 1 by push_cast; ring, h, zpow_one, pow_succ]
        push_cast
        field_simp
    obtain ⟨q, hq⟩ := hd
    rw [rndPos, hq, round_intCast, ← hq, div_mul_cancel₀ _ (ulp_pos p _).ne']
  intro z hz
  change rndBin p (z : R) = z
  rw [rndBin]
  rcases lt_trichotomy 0 z with h | h | h
  · have h' : (0 : R) < z := by exact_mod_cast h
    rw [if_pos h', key z h (by rwa [abs_of_pos h'] at hz)]
  · subst h; simp
  · have h' : (z : R) < 0 := by exact_mod_cast h
    rw [if_neg (by linarith), if_pos h']
    have := key (-z) (by omega) (by push_cast; rwa [abs_of_neg h'] at hz)
    push_cast at this
    rw [this, neg_neg]

namespace Expr

/-- Built from integers without division. -/
def IntE : Expr R → Prop
  | const c => IsInteger c
  | add a b => a.IntE ∧ b.IntE
  | neg a => a.IntE
  | mul a b => a.IntE ∧ b.IntE
  | divBy _ _ => False
  | recip _ => False
  | max a b => a.IntE ∧ b.IntE

theorem Rw.int {e e' : Expr R} (h : Rw e e') (hi : e.IntE) : e'.IntE := by
  induction h with
  | refl a => exact hi
  | trans _ _ ih1 ih2 => exact ih2 (ih1 hi)
  | add_congr _ _ ih1 ih2 => exact ⟨ih1 hi.1, ih2 hi.2⟩
  | mul_congr _ _ ih1 ih2 => exact ⟨ih1 hi.1, ih2 hi.2⟩
  | max_congr _ _ ih1 ih2 => exact ⟨ih1 hi.1, ih2 hi.2⟩
  | neg_congr _ ih => exact ih hi
  | div_congr z _ ih => exact hi.elim
  | div_recip a z => exact hi.elim
  | div_mul a b z => exact hi.elim
  | div_mul' a b z => exact hi.2.elim
  | one_mul c => exact hi.2
  | zero_add a => exact hi.2
  | _ => simp only [IntE] at hi ⊢; tauto

theorem IntE.val {e : Expr R} (h : e.IntE) : IsInteger e.val := by
  induction e with
  | const c => exact h
  | add a b iha ihb => exact (iha h.1).add (ihb h.2)
  | neg a ih => exact (ih h).neg
  | mul a b iha ihb => exact (iha h.1).mul (ihb h.2)
  | divBy a z ih => exact h.elim
  | recip z => exact h.elim
  | max a b iha ihb => exact (iha h.1).max (ihb h.2)

theorem IntE.absval {e : Expr R} (h : e.IntE) : IsInteger e.absval := by
  induction e with
  | const c => exact IsInteger.abs h
  | add a b iha ihb => exact (iha h.1).add (ihb h.2)
  | neg a ih => exact ih h
  | mul a b iha ihb => exact (iha h.1).mul (ihb h.2)
  | divBy a z ih => exact h.elim
  | recip z => exact h.elim
  | max a b iha ihb => exact (iha h.1).max (ihb h.2)

theorem abs_val_le (e : Expr R) : |e.val| ≤ e.absval := ((ev_Ev (F := Fp.exact) e).near).bound

variable {F : Fp R}

theorem Rounds.exact {B v y : R} (hF : F.Integers B) (h : Rounds F v y) (hv : IsInteger v) (hB : |v| ≤ B) : y = v := by
  obtain ⟨z, rfl⟩ := hv
  rcases h with rfl | rfl
  · exact hF z hB
  · rfl

/-- Integers stay exact as long as the expression for the absolute values stays within the format. -/
theorem Ev.exact {B : R} (hF : F.Integers B) {e : Expr R} {y : R} (h : Ev F e y) (hi : e.IntE) (hB : e.absval ≤ B) : y = e.val := by
  induction h with
  | const c => rfl
  | @add a b x y z _ _ hr iha ihb =>
    have hB' : a.absval + b.absval ≤ B := hB
    have ha := absval_nonneg a
    have hb := absval_nonneg b
    obtain rfl := iha hi.1 (by linarith)
    obtain rfl := ihb hi.2 (by linarith)
    exact hr.exact hF (hi.1.val.add hi.2.val) ((abs_val_le (.add a b)).trans hB)
  | neg _ ih => rw [ih hi hB]; rfl
  | @mul a b x y z _ _ hr iha ihb =>
    have hB' : a.absval * b.absval ≤ B := hB
    have ha := absval_nonneg a
    have hb := absval_nonneg b
    have h0 : F.rnd 0 = 0 := by simpa using hF 0 (by simpa using (mul_nonneg ha hb).trans hB')
    rcases ha.eq_or_lt with ha0 | ha0
    · obtain rfl := iha hi.1 (by rw [← ha0]; exact (mul_nonneg ha hb).trans hB')
      have : a.val = 0 := abs_nonpos_iff.mp (by rw [ha0]; exact abs_val_le a)
      simp only [Expr.val, this, zero_mul] at hr ⊢
      rcases hr with rfl | rfl
      exacts [h0, rfl]
    rcases hb.eq_or_lt with hb0 | hb0
    · obtain rfl := ihb hi.2 (by rw [← hb0]; exact (mul_nonneg ha hb).trans hB')
      have : b.val = 0 := abs_nonpos_iff.mp (by rw [hb0]; exact abs_val_le b)
      simp only [Expr.val, this, mul_zero] at hr ⊢
      rcases hr with rfl | rfl
      exacts [h0, rfl]
    have ha1 := hi.1.absval.one_le ha0
    have hb1 := hi.2.absval.one_le hb0
    obtain rfl := iha hi.1 (by nlinarith)
    obtain rfl := ihb hi.2 (by nlinarith)
    exact hr.exact hF (hi.1.val.mul hi.2.val) ((abs_val_le (.mul a b)).trans hB)
  | divBy _ _ _ => exact hi.elim
  | recip _ => exact hi.elim
  | @max a b x y _ _ iha ihb =>
    have hB' : Max.max a.absval b.absval ≤ B := hB
    rw [iha hi.1 (le_trans (le_max_left _ _) hB'), ihb hi.2 (le_trans (le_max_right _ _) hB')]; rfl

theorem Fast.exact {B : R} (hF : F.Integers B) {e : Expr R} {y : R} (h : Fast F e y) (hi : e.IntE) (hB : e.absval ≤ B) : y = e.val := by
  obtain ⟨e', hr, he⟩ := h
  rw [← hr.sound.1]
  exact he.exact hF (hr.int hi) (hr.sound.2.1 ▸ hB)

/-! ### the kernels, applied to integers -/

/-- All expressions of an array are built from integers. -/
def AllInt (tmp : List (Expr R)) : Prop := ∀ e ∈ tmp, e.IntE

theorem mem_zipWith {α β γ : Type*} {f : α → β → γ} {x : List α} {y : List β} {e : γ} (h : e ∈ List.zipWith f x y) :
    ∃ a ∈ x, ∃ b ∈ y, e = f a b := by
  induction x generalizing y with
  | nil => simp at h
  | cons a x ih =>
    cases y with
    | nil => simp at h
    | cons b y =>
      simp only [List.zipWith_cons_cons, List.mem_cons] at h
      rcases h with rfl | h
      · exact ⟨a, by simp, b, by simp, rfl⟩
      · obtain ⟨a', ha, b', hb, rfl⟩ := ih h
        exact ⟨a', by simp [ha], b', by simp [hb], rfl⟩

theorem AllInt.vmul {x : List (Expr R)} (h : AllInt x) {y : List R} (hy : ∀ c ∈ y, IsInteger c) : AllInt (vmul x y) := by
  intro e he
  obtain ⟨a, ha, b, hb, rfl⟩ := mem_zipWith he
  exact ⟨h a ha, hy b hb⟩

theorem AllInt.vadd {x y : List (Expr R)} (h : AllInt x) (hy : AllInt y) : AllInt (vadd x y) := by
  intro e he
  obtain ⟨a, ha, b, hb, rfl⟩ := mem_zipWith he
  exact ⟨h a ha, hy b hb⟩

theorem AllInt.vsub {x y : List (Expr R)} (h : AllInt x) (hy : AllInt y) : AllInt (vsub x y) := by
  intro e he
  obtain ⟨a, ha, b, hb, rfl⟩ := mem_zipWith he
  exact ⟨h a ha, hy b hb⟩

theorem AllInt.cumsumFrom {x : List (Expr R)} (h : AllInt x) {acc : Expr R} (ha : acc.IntE) : AllInt (cumsumFrom acc x) := by
  induction x generalizing acc with
  | nil => intro e he; simp [Expr.cumsumFrom] at he
  | cons a x ih =>
    intro e he
    have hx : (Expr.add acc a).IntE := ⟨ha, h a (by simp)⟩
    simp only [Expr.cumsumFrom, List.mem_cons] at he
    rcases he with rfl | he
    · exact hx
    · exact ih (fun e he => h e (by simp [he])) hx e he

theorem AllInt.cumsum {x : List (Expr R)} (h : AllInt x) : AllInt (cumsum x) := h.cumsumFrom IsInteger.zero

theorem row_mem {Z : List (List R)} {d : ℕ} {x : R} (h : x ∈ row Z d) : ∃ r ∈ Z, x ∈ r := by
  rw [row, List.getD_eq_getElem?_getD] at h
  by_cases hd : d < Z.length
  · rw [List.getElem?_eq_getElem hd] at h
    exact ⟨_, List.getElem_mem hd, h⟩
  · rw [List.getElem?_eq_none (by omega)] at h
    simp at h

/-- All entries of a series are integers. -/
def IntSeries (Z : List (List R)) : Prop := ∀ r ∈ Z, ∀ x ∈ r, IsInteger x

theorem IntSeries.row {Z : List (List R)} (hZ : IntSeries Z) (d : ℕ) : ∀ c ∈ row Z d, IsInteger c := fun c hc =>
  let ⟨r, hr, hx⟩ := row_mem hc
  hZ r hr c hx

theorem AllInt.letterMul {Z : List (List R)} (hZ : IntSeries Z) {tmp : List (Expr R)} (h : AllInt tmp) (d : ℕ) {e : ℤ} (he : 0 ≤ e) :
    AllInt (letterMul Z d e tmp) := by
  rw [Expr.letterMul]
  split
  · generalize e.toNat = k
    induction k generalizing tmp with
    | zero => exact h
    | succ k ih => rw [Function.iterate_succ_apply]; exact ih (h.vmul (hZ.row d))
  · rw [if_neg (by omega)]; exact h

theorem enumFold_pres {α σ : Type*} {P : σ → Prop} {Q : α → Prop} {f : ℕ → α → σ → σ} (h : ∀ k x s, Q x → P s → P (f k x s)) (k : ℕ)
    {xs : List α} (hx : ∀ x ∈ xs, Q x) {s : σ} (hs : P s) : P (enumFold f k xs s) := by
  induction xs generalizing k s with
  | nil => exact hs
  | cons x xs ih => rw [enumFold]; exact ih _ (fun y hy => hx y (by simp [hy])) (h _ _ _ (hx x (by simp)) hs)

theorem AllInt.lettersMul {Z : List (List R)} (hZ : IntSeries Z) {tmp : List (Expr R)} (h : AllInt tmp) {el : List ℤ} (he : ∀ e ∈ el, 0 ≤ e) :
    AllInt (lettersMul Z el tmp) :=
  enumFold_pres (P := AllInt) (Q := fun e : ℤ => 0 ≤ e) (fun _ _ _ hx hs => hs.letterMul hZ _ hx) 0 he h

theorem AllInt.lettersAdd {Z : List (List R)} (hZ : IntSeries Z) {tmp : List (Expr R)} (h : AllInt tmp) (el : List ℤ) :
    AllInt (lettersAdd Z el tmp) := by
  refine enumFold_pres (P := AllInt) (Q := fun _ : ℤ => True) (fun k e s _ hs => hs.vadd fun x hx => ?_) 0 (fun _ _ => trivial) h
  obtain ⟨c, hc, rfl⟩ := List.mem_map.mp hx
  exact ⟨⟨e, rfl⟩, hZ.row k c hc⟩

theorem AllInt.set {x : List (Expr R)} (h : AllInt x) (i : ℕ) {a : Expr R} (ha : a.IntE) : AllInt (x.set i a) := by
  intro e he
  rcases List.mem_or_eq_of_mem_set he with he | rfl
  exacts [h e he, ha]

theorem AllInt.getD {x : List (Expr R)} (h : AllInt x) (i : ℕ) : (x.getD i 0).IntE := by
  rw [List.getD_eq_getElem?_getD]
  by_cases hi : i < x.length
  · rw [List.getElem?_eq_getElem hi]; exact h _ (List.getElem_mem hi)
  · rw [List.getElem?_eq_none (by omega)]; exact IsInteger.zero

theorem AllInt.foldl {ι : Type*} {f : List (Expr R) → ι → List (Expr R)} (hf : ∀ x i, AllInt x → AllInt (f x i)) (l : List ι)
    {x : List (Expr R)} (h : AllInt x) : AllInt (l.foldl f x) := by
  induction l generalizing x with
  | nil => exact h
  | cons i l ih => exact ih (hf _ _ h)

theorem IntE.maxI {a b : Expr R} (ha : a.IntE) (hb : b.IntE) : IntE (Max.max a b : Expr R) := ⟨ha, hb⟩

theorem AllInt.maxLoop {x : List (Expr R)} (h : AllInt x) : AllInt (maxLoop x) :=
  h.foldl (fun x i hx => hx.set i ((hx.getD _).maxI (hx.getD _))) _

theorem AllInt.maxRowLoop {x y : List (Expr R)} (h : AllInt x) (hy : AllInt y) : AllInt (maxRowLoop x y) :=
  (h.set 0 (hy.getD 0)).foldl (fun _ i hx => hx.set i ((hx.getD _).maxI (hy.getD _))) _

theorem AllInt.roll1z {x : List (Expr R)} (h : AllInt x) : AllInt (roll1z x) := by
  refine AllInt.set ?_ 0 IsInteger.zero
  intro e he
  rw [roll1, List.mem_append] at he
  rcases he with he | he
  · exact h e (List.mem_of_mem_drop he)
  · exact h e (List.mem_of_mem_take he)

/-- All expressions of a result are built from integers. -/
def AllInt2 (result : List (List (Expr R))) : Prop := ∀ x ∈ result, AllInt x

theorem AllInt2.set {x : List (List (Expr R))} (h : AllInt2 x) (i : ℕ) {a : List (Expr R)} (ha : AllInt a) : AllInt2 (x.set i a) := by
  intro e he
  rcases List.mem_or_eq_of_mem_set he with he | rfl
  exacts [h e he, ha]

theorem AllInt2.getD {x : List (List (Expr R))} (h : AllInt2 x) (i : ℕ) : AllInt (x.getD i []) := by
  rw [List.getD_eq_getElem?_getD]
  by_cases hi : i < x.length
  · rw [List.getElem?_eq_getElem hi]; exact h _ (List.getElem_mem hi)
  · rw [List.getElem?_eq_none (by omega)]; intro e he; simp at he

theorem AllInt.ite {c : Prop} [Decidable c] {x y : List (Expr R)} (hx : AllInt x) (hy : AllInt y) : AllInt (if c then x else y) := by
  split
  exacts [hx, hy]

theorem AllInt2.ite {c : Prop} [Decidable c] {x y : List (List (Expr R))} (hx : AllInt2 x) (hy : AllInt2 y) : AllInt2 (if c then x else y) := by
  split
  exacts [hx, hy]

theorem allInt_replicate (n : ℕ) {c : R} (hc : IsInteger c) : AllInt (List.replicate n (const c)) := by
  intro e he
  rw [List.eq_of_mem_replicate he]
  exact hc

theorem allInt2_replicate (k n : ℕ) {c : R} (hc : IsInteger c) : AllInt2 (List.replicate k (List.replicate n (const c))) := by
  intro e he
  rw [List.eq_of_mem_replicate he]
  exact allInt_replicate n hc

theorem expW_int {m : R → R} (hm : m 0 = 1) (n : ℕ) (a : R) : ∀ c ∈ expW m (Fruits.zeros n) a, IsInteger c := by
  intro c hc
  obtain ⟨w, hw, rfl⟩ := List.mem_map.mp hc
  rw [List.eq_of_mem_replicate hw, zero_mul, hm]
  exact IsInteger.one

theorem expNegW_int {m : R → R} (hm : m 0 = 1) (n : ℕ) (a : R) : ∀ c ∈ expNegW m (Fruits.zeros n) a, IsInteger c := by
  intro c hc
  obtain ⟨w, hw, rfl⟩ := List.mem_map.mp hc
  rw [List.eq_of_mem_replicate hw, neg_zero, zero_mul, hm]
  exact IsInteger.one

theorem vscale_int (n p k : ℕ) : AllInt (vscale (Fruits.zeros n : List R) ((Fruits.zeros p).getD k 0)) := by
  intro e he
  obtain ⟨w, hw, rfl⟩ := List.mem_map.mp he
  rw [List.eq_of_mem_replicate hw, Fruits.zeros_getD]
  exact ⟨IsInteger.zero, IsInteger.zero⟩

/-- Without weighting, the kernels apply the operations of the source to the integers of the data only. -/
theorem fastSingle_int {m : R → R} (hm : m 0 = 1) (kd : RKind) {Z : List (List R)} (hZ : IntSeries Z) {word : List (List ℤ)}
    (hword : kd = .arctic ∨ ∀ el ∈ word, ∀ e ∈ el, 0 ≤ e) (p n ext : ℕ) :
    AllInt2 (Expr.fastSingle m kd Z word (Fruits.zeros p) (Fruits.zeros n) ext true) := by
  cases kd with
  | reals =>
    have hw : ∀ el ∈ word, ∀ e ∈ el, 0 ≤ e := hword.resolve_left (by simp)
    refine (enumFold_pres (P := fun s : List (Expr R) × List (List (Expr R)) => AllInt s.1 ∧ AllInt2 s.2)
      (Q := fun el : List ℤ => ∀ e ∈ el, 0 ≤ e) (fun k el s hel hs => ?_) 0 hw
      ⟨allInt_replicate _ IsInteger.one, allInt2_replicate _ _ IsInteger.zero⟩).2
    have h1 := ((hs.1.lettersMul hZ hel).vmul (expW_int hm n ((Fruits.zeros p).getD k 0))).cumsum
    exact ⟨(h1.roll1z.vmul (expNegW_int hm n _)).ite h1, (hs.2.set _ (h1.vmul (expNegW_int hm n _))).ite hs.2⟩
  | arctic =>
    refine (enumFold_pres (P := fun s : List (Expr R) × List (List (Expr R)) => AllInt s.1 ∧ AllInt2 s.2)
      (Q := fun _ : List ℤ => True) (fun k el s _ hs => ?_) 0 (fun _ _ => trivial)
      ⟨allInt_replicate _ IsInteger.zero, allInt2_replicate _ _ IsInteger.zero⟩).2
    have h1 := ((hs.1.lettersAdd hZ el).vadd (vscale_int n p k)).maxLoop
    exact ⟨(h1.vsub (vscale_int n p k)).ite h1, (hs.2.set _ (h1.vsub (vscale_int n p k))).ite hs.2⟩
  | bayesian =>
    have hw : ∀ el ∈ word, ∀ e ∈ el, 0 ≤ e := hword.resolve_left (by simp)
    refine (enumFold_pres (P := fun s : List (Expr R) × List (List (Expr R)) => AllInt s.1 ∧ AllInt2 s.2)
      (Q := fun el : List ℤ => ∀ e ∈ el, 0 ≤ e) (fun k el s hel hs => ?_) 0 hw
      ⟨allInt_replicate _ IsInteger.one, allInt2_replicate _ _ IsInteger.zero⟩).2
    have h1 := ((hs.1.lettersMul hZ hel).vmul (expW_int hm n ((Fruits.zeros p).getD k 0))).maxLoop
    exact ⟨(h1.vmul (expNegW_int hm n _)).ite h1, (hs.2.set _ (h1.vmul (expNegW_int hm n _))).ite hs.2⟩

/-- An entry whose expression is built from integers of the format. -/
theorem fast_entry {B : R} (hF : F.Integers B) {expf : R → R} {kd : RKind} {Z : List (List R)} {word : List (List ℤ)}
    {alpha lookup : List R} {ext : ℕ} {total : Bool} {out : List (List R)} (h : F.FastSingle expf kd Z word alpha lookup ext total out)
    (hi : AllInt2 (Expr.fastSingle (F.mexp expf) kd Z word alpha lookup ext total)) {r t : ℕ}
    (hr : r < (Expr.fastSingle (F.mexp expf) kd Z word alpha lookup ext total).length) {n k s : ℕ} {a A : ℕ → R}
    (hs : SymV n k s a A ((Expr.fastSingle (F.mexp expf) kd Z word alpha lookup ext total).getD r [])) (ht : t < n) (hB : A t ≤ B) :
    at2 out r t = a t := by
  have h1 := forall₂_getD h hr [] []
  obtain ⟨x, hx, hx'⟩ := hs
  have hi' := hi.getD r
  rw [hx] at h1 hi'
  have h2 := forall₂_getD h1 (i := t) (by simpa using ht) (const 0) 0
  rw [tab_getD _ _ _ _ ht] at h2
  obtain ⟨e1, e2, -⟩ := hx' t ht
  have := h2.exact hF (hi' _ (mem_tab.mpr ⟨t, ht, rfl⟩)) (by rw [e2]; exact hB)
  rw [at2, this, e1]

/-- **C160** (`Reals`, integers): for integers and words without negative exponents, as long as the iterated sum of the absolute values
is a number of the format, every entry a compiled program may return is the exact strict iterated sum. -/
theorem C160_integers_reals (F : Fp R) {B : R} (hF : F.Integers B) {expf : R → R} (hexp : expf 0 = 1) {X : Data R} {D n : ℕ}
    {words : List (SWord R)} {out : Data R} (hout : F.FastISS expf .reals words none X out) (hadm : Admissible X D n words)
    (hint : ∀ Z ∈ X, ∀ r ∈ Z, ∀ x ∈ r, IsInteger x) {i j t : ℕ} (hi : i < words.length) (hj : j < X.length) (ht : t < n)
    (hpos : ∀ el ∈ words[i].els, ∀ e ∈ el, 0 ≤ e)
    (hB : ∑ s ∈ incTuples words[i].els.length (t + 1), ∏ k : Fin words[i].els.length, |monomial X[j] words[i].els[k] (s k)| ≤ B) :
    at3 out i j t = ∑ s ∈ incTuples words[i].els.length (t + 1), ∏ k : Fin words[i].els.length, monomial X[j] words[i].els[k] (s k) := by
  obtain ⟨hZ, hne, hfit, hp⟩ := admissible_word hadm hi hj
  obtain ⟨o, ho, heq⟩ := fastISS_entry hout hadm hi hj
  rw [heq t]
  have hs := totalReals_sym (F.mexp expf) hZ hne hfit (Fruits.zeros words[i].els.length) (weights := Fruits.zeros n) (by simp)
    hp
  have hI := fastSingle_int (m := F.mexp expf) (mexp_zero F hexp) .reals (hint _ (List.getElem_mem hj)) (word := words[i].els) (.inr hpos)
    words[i].els.length n 1
  have h := fun hb => fast_entry (r := 0) (t := t) hF ho hI (by simp only [Expr.fastSingle]; rw [hs.1]; omega) (hs.2 0 (by omega)) ht hb
  rw [show words[i].els.length - 1 + 0 + 1 = words[i].els.length by omega] at h
  simp only [Fruits.zeros_getD, neg_zero, mul_zero, mexp_zero F hexp, mul_one, abs_one] at h
  have e : aW (F.mexp expf) (monos X[j] words[i].els) (fun _ => 0) (fun _ => 0) = monos X[j] words[i].els := by
    funext a b
    simp [aW, mexp_zero F hexp]
  rw [e] at h
  have e1 : incSum (monos X[j] words[i].els) words[i].els.length (t + 1)
      = ∑ s ∈ incTuples words[i].els.length (t + 1),
          ∏ k : Fin words[i].els.length, monomial X[j] words[i].els[k] (s k) :=
    Finset.sum_congr rfl fun s _ => prod_getDx words[i].els [] rfl (fun el s => monomial X[j] el s) s
  have e2 : incSum (fun a b => |monos X[j] words[i].els a b|) words[i].els.length (t + 1)
      = ∑ s ∈ incTuples words[i].els.length (t + 1),
          ∏ k : Fin words[i].els.length, |monomial X[j] words[i].els[k] (s k)| :=
    Finset.sum_congr rfl fun s _ => prod_getDx words[i].els [] rfl (fun el s => |monomial X[j] el s|) s
  rw [e1, e2] at h
  exact h hB

/-- **C160** (`Arctic`, integers): `M` is the exact maximum over all `i_1 ≤ … ≤ i_p ≤ t`, `A` the maximum of the sums
of absolute values; negative exponents are allowed. -/
theorem C160_integers_arctic (F : Fp R) {B : R} (hF : F.Integers B) {expf : R → R} (hexp : expf 0 = 1) {X : Data R} {D n : ℕ}
    {words : List (SWord R)} {out : Data R} (hout : F.FastISS expf .arctic words none X out) (hadm : Admissible X D n words)
    (hint : ∀ Z ∈ X, ∀ r ∈ Z, ∀ x ∈ r, IsInteger x) {i j t : ℕ} (hi : i < words.length) (hj : j < X.length) (ht : t < n) {M A : R}
    (hM : IsGreatest {v | ∃ s : Fin words[i].els.length → ℕ, Monotone s ∧ (∀ k, s k ≤ t) ∧
      v = ∑ k : Fin words[i].els.length, linform X[j] words[i].els[k] (s k)} M)
    (hA : IsGreatest {v | ∃ s : Fin words[i].els.length → ℕ, Monotone s ∧ (∀ k, s k ≤ t) ∧
      v = ∑ k : Fin words[i].els.length, ∑ d ∈ Finset.range words[i].els[k].length,
        |(words[i].els[k].getD d 0 : R) * entry X[j] d (s k)|} A) (hB : A ≤ B) : at3 out i j t = M := by
  obtain ⟨hZ, hne, hfit, hp⟩ := admissible_word hadm hi hj
  obtain ⟨o, ho, heq⟩ := fastISS_entry hout hadm hi hj
  rw [heq t]
  have hs := totalArctic_sym hZ hne hfit (Fruits.zeros words[i].els.length) (weights := Fruits.zeros n) (by simp)
    hp
  have hI := fastSingle_int (m := F.mexp expf) (mexp_zero F hexp) .arctic (hint _ (List.getElem_mem hj)) (word := words[i].els) (.inl rfl)
    words[i].els.length n 1
  have h := fun hb => fast_entry (r := 0) (t := t) hF ho hI (by simp only [Expr.fastSingle]; rw [hs.1]; omega) (hs.2 0 (by omega)) ht hb
  rw [show words[i].els.length - 1 + 0 + 1 = words[i].els.length by omega] at h
  simp only [Fruits.zeros_getD, mul_zero, sub_zero, abs_zero, add_zero] at h
  have e : aP (lins X[j] words[i].els) (fun _ => (0 : R)) (fun _ => 0) = lins X[j] words[i].els := by
    funext a b; simp [aP]
  have e' : absP (absLins X[j] words[i].els) (fun _ => (0 : R)) (fun _ => 0) = absLins X[j] words[i].els := by
    funext a b; simp [absP]
  rw [e, e'] at h
  have key : ∀ (c : List ℤ → ℕ → R) (V : R), IsGreatest {v | ∃ s : Fin words[i].els.length → ℕ, Monotone s ∧
      (∀ k, s k ≤ t) ∧ v = ∑ k : Fin words[i].els.length, c words[i].els[k] (s k)} V →
      V = chainMax (· + ·) 0 (fun a b => c (words[i].els.getD a []) b) words[i].els.length t := by
    intro c V hV
    refine hV.unique ?_
    convert chainMax_isGreatest (· + ·) (0 : R) (fun a b => c (words[i].els.getD a []) b) words[i].els.length n
      (fun _ _ _ _ x y h => by simpa using h) t ht using 1
    ext v
    constructor
    · rintro ⟨s, h1, h2, rfl⟩
      exact ⟨s, ⟨h1, h2⟩, by rw [chainVal_add, zero_add]; exact (sum_getDx words[i].els [] rfl c s).symm⟩
    · rintro ⟨s, ⟨h1, h2⟩, rfl⟩
      exact ⟨s, h1, h2, by rw [chainVal_add, zero_add]; exact sum_getDx words[i].els [] rfl c s⟩
  rw [key (fun el s => linform X[j] el s) M hM]
  rw [key (fun el s => absLinform X[j] el s) A hA] at hB
  exact h hB

/-- **C160** (`Bayesian`, non-negative integers): `M` is the exact maximum of the products over all `i_1 ≤ … ≤ i_p ≤ t`. -/
theorem C160_integers_bayesian (F : Fp R) {B : R} (hF : F.Integers B) {expf : R → R} (hexp : expf 0 = 1) {X : Data R} {D n : ℕ}
    {words : List (SWord R)} {out : Data R} (hout : F.FastISS expf .bayesian words none X out) (hadm : Admissible X D n words)
    (hint : ∀ Z ∈ X, ∀ r ∈ Z, ∀ x ∈ r, IsInteger x) (hX : Nonnegative X) {i j t : ℕ} (hi : i < words.length) (hj : j < X.length)
    (ht : t < n) (hpos : ∀ el ∈ words[i].els, ∀ e ∈ el, 0 ≤ e) {M : R}
    (hM : IsGreatest {v | ∃ s : Fin words[i].els.length → ℕ, Monotone s ∧ (∀ k, s k ≤ t) ∧
      v = ∏ k : Fin words[i].els.length, monomial X[j] words[i].els[k] (s k)} M) (hB : M ≤ B) : at3 out i j t = M := by
  obtain ⟨hZ, hne, hfit, hp⟩ := admissible_word hadm hi hj
  obtain ⟨o, ho, heq⟩ := fastISS_entry hout hadm hi hj
  rw [heq t]
  have hs := totalBayesian_sym (F.mexp expf) hZ hne hfit (Fruits.zeros words[i].els.length) (weights := Fruits.zeros n) (by simp)
    hp
  have hI := fastSingle_int (m := F.mexp expf) (mexp_zero F hexp) .bayesian (hint _ (List.getElem_mem hj)) (word := words[i].els) (.inr hpos)
    words[i].els.length n 1
  have h := fun hb => fast_entry (r := 0) (t := t) hF ho hI (by simp only [Expr.fastSingle]; rw [hs.1]; omega) (hs.2 0 (by omega)) ht hb
  rw [show words[i].els.length - 1 + 0 + 1 = words[i].els.length by omega] at h
  simp only [Fruits.zeros_getD, neg_zero, mul_zero, mexp_zero F hexp, mul_one, abs_one] at h
  have e : aW (F.mexp expf) (monos X[j] words[i].els) (fun _ => 0) (fun _ => 0) = monos X[j] words[i].els := by
    funext a b
    simp [aW, mexp_zero F hexp]
  have hm : ∀ (el : List ℤ) (s : ℕ), 0 ≤ monomial X[j] el s := fun el s =>
    Finset.prod_nonneg fun d _ => zpow_nonneg (hX _ (List.getElem_mem hj) d s) _
  have e2 : (fun a b => |monos X[j] words[i].els a b|) = monos X[j] words[i].els := by
    funext a b; exact abs_of_nonneg (hm _ _)
  rw [e, e2] at h
  have hMe : M = chainMax (· * ·) 1 (monos X[j] words[i].els) words[i].els.length t := by
    refine hM.unique ?_
    convert chainMax_isGreatest (· * ·) (1 : R) (monos X[j] words[i].els) words[i].els.length n
      (fun a _ s _ x y h => mul_le_mul_of_nonneg_right h (hm _ _)) t ht using 1
    ext v
    constructor
    · rintro ⟨s, h1, h2, rfl⟩
      exact ⟨s, ⟨h1, h2⟩, by
        rw [chainVal_mul, one_mul]
        exact (prod_getDx words[i].els [] rfl (fun el s => monomial X[j] el s) s).symm⟩
    · rintro ⟨s, ⟨h1, h2⟩, rfl⟩
      exact ⟨s, h1, h2, by
        rw [chainVal_mul, one_mul]; exact prod_getDx words[i].els [] rfl (fun el s => monomial X[j] el s) s⟩
  rw [hMe] at hB ⊢
  exact h hB

/-- **C160** (`Reals`): the results of two compilations of the program (other machines, other compiler versions) differ by at most twice the
error bound. -/
theorem C160_reproducible (F : Fp R) {expf : R → R} (hexp : expf 0 = 1) {X : Data R} {D n : ℕ} {words : List (SWord R)} {out out' : Data R}
    (hout : F.FastISS expf .reals words none X out) (hout' : F.FastISS expf .reals words none X out')
    (hadm : Admissible X D n words) (hdiv : NoZeroDivision X n words) {i j t : ℕ} (hi : i < words.length) (hj : j < X.length) (ht : t < n) :
    |at3 out i j t - at3 out' i j t|
      ≤ 2 * (((1 + F.u) ^ (words[i].els.map fun el => (el.map fun e => e.toNat + 2 * (-e).toNat).sum + n + 2).sum - 1)
        * ∑ s ∈ incTuples words[i].els.length (t + 1), ∏ k : Fin words[i].els.length, |monomial X[j] words[i].els[k] (s k)|) := by
  have h1 := C160_reals F hexp hout hadm hdiv hi hj ht
  have h2 := C160_reals F hexp hout' hadm hdiv hi hj ht
  rw [abs_sub_comm] at h2
  have := abs_sub_le (at3 out i j t) (∑ s ∈ incTuples words[i].els.length (t + 1),
    ∏ k : Fin words[i].els.length, monomial X[j] words[i].els[k] (s k)) (at3 out' i j t)
  linarith

end Expr

/-! ### examples -/

namespace FastExample
open Expr RoundedExample

/-- `fastmath` makes a difference: with two significant bits, `(8 + 1) + 1` is `8`, but the compiler may as well return `10` rounded, `12`,
via `8 + (1 + 1)`. -/
example : Fast (Fp.binary 1 : Fp ℚ) (.add (.add (.const 8) (.const 1)) (.const 1)) 8 ∧
    Fast (Fp.binary 1 : Fp ℚ) (.add (.add (.const 8) (.const 1)) (.const 1)) 12 := by
  constructor
  · have := ev_fast (F := (Fp.binary 1 : Fp ℚ)) (.add (.add (.const 8) (.const 1)) (.const 1))
    convert this using 1
    decide +kernel
  · refine ⟨.add (.const 8) (.add (.const 1) (.const 1)), .add_assoc _ _ _, ?_⟩
    refine .add (.const 8) (.add (z := 2) (.const 1) (.const 1) (.inr (by norm_num))) (.inl ?_)
    decide +kernel

example : |at3 ((Fp.binary 2 : Fp ℚ).issSingle (fun _ => 1) .reals [w] none X) 0 0 3
      - ∑ s ∈ incTuples 3 4, ∏ k : Fin 3, monomial X[0] w.els[k] (s k)|
    ≤ ((1 + (Fp.binary 2 : Fp ℚ).u) ^ 22 - 1)
      * ∑ s ∈ incTuples 3 4, ∏ k : Fin 3, monomial X[0] w.els[k] (s k) :=
  C160_reals_relative (Fp.binary 2) rfl (C160_source_iss _ _ _ _ _ _) adm nodiv nonneg (i := 0) (j := 0) (t := 3) (by simp) (by simp [X])
    (by omega)

/-- One series of integers. -/
def XI : Data ℚ := [[[1, -2, 0, 3]]]

theorem admI : Admissible XI 1 4 [w] where
  data := by simp [IsData, XI, Rect]
  dims := by omega
  nonempty := by simp
  letters := by simp [w]
  fits := by simp [w]

/-- Another one. -/
def XJ : Data ℚ := [[[1, 3]]]

theorem admJ : Admissible XJ 1 2 [w] where
  data := by simp [IsData, XJ, Rect]
  dims := by omega
  nonempty := by simp
  letters := by simp [w]
  fits := by simp [w]

/-- Every program a compiler may produce for `float64` returns `1 · (-2) · 9` for `[1][1][11]`. -/
example {out : Data ℚ} (h : (Fp.binary 52 : Fp ℚ).FastISS (fun _ => 1) .reals [w] none XI out) : at3 out 0 0 3 = -18 := by
  rw [C160_integers_reals (Fp.binary 52) (Fp.binary_integers 52) rfl h admI
    (by
      intro Z hZ r hr x hx
      simp only [XI, List.mem_singleton] at hZ; subst hZ
      simp only [List.mem_singleton] at hr; subst hr
      simp only [List.mem_cons, List.not_mem_nil, or_false] at hx
      rcases hx with rfl | rfl | rfl | rfl
      exacts [⟨1, by simp⟩, ⟨-2, by simp⟩, ⟨0, by simp⟩, ⟨3, by simp⟩])
    (i := 0) (j := 0) (t := 3) (by simp) (by simp [XI]) (by omega) (by decide) (by decide +kernel)]
  decide +kernel

theorem intXI : ∀ Z ∈ XJ, ∀ r ∈ Z, ∀ x ∈ r, IsInteger x := by
  intro Z hZ r hr x hx
  simp only [XJ, List.mem_singleton] at hZ; subst hZ
  simp only [List.mem_singleton] at hr; subst hr
  simp only [List.mem_cons, List.not_mem_nil, or_false] at hx
  rcases hx with rfl | rfl
  exacts [⟨1, by simp⟩, ⟨3, by simp⟩]

/-- `Arctic`: `1 + 1 + 2 · 1 = 4` at the first time step. -/
example {out : Data ℚ} (h : (Fp.binary 52 : Fp ℚ).FastISS (fun _ => 1) .arctic [w] none XJ out) : at3 out 0 0 0 = 4 := by
  have key : ∀ s : Fin 3 → ℕ, (∀ k, s k ≤ 0) → s = fun _ => 0 := fun s h => funext fun k => by simpa using h k
  refine C160_integers_arctic (Fp.binary 52) (Fp.binary_integers 52) rfl h admJ intXI
    (i := 0) (j := 0) (t := 0) (by simp) (by simp [XJ]) (by omega) (M := 4) (A := 4) ⟨?_, ?_⟩ ⟨?_, ?_⟩ (by norm_num)
  · exact ⟨fun _ => 0, monotone_const, by simp, by decide +kernel⟩
  · rintro v ⟨s, -, h2, rfl⟩
    rw [key s h2]; decide +kernel
  · exact ⟨fun _ => 0, monotone_const, by simp, by decide +kernel⟩
  · rintro v ⟨s, -, h2, rfl⟩
    rw [key s h2]; decide +kernel

/-- `Bayesian`: `1 · 1 · 1 = 1` at the first time step. -/
example {out : Data ℚ} (h : (Fp.binary 52 : Fp ℚ).FastISS (fun _ => 1) .bayesian [w] none XJ out) : at3 out 0 0 0 = 1 := by
  have key : ∀ s : Fin 3 → ℕ, (∀ k, s k ≤ 0) → s = fun _ => 0 := fun s h => funext fun k => by simpa using h k
  refine C160_integers_bayesian (Fp.binary 52) (Fp.binary_integers 52) rfl h admJ intXI ?_
    (i := 0) (j := 0) (t := 0) (by simp) (by simp [XJ]) (by omega) (by decide) (M := 1) ⟨?_, ?_⟩ (by norm_num)
  · intro Z hZ d t
    simp only [XJ, List.mem_singleton] at hZ
    subst hZ
    rcases d with _ | d
    · rcases t with _ | _ | t <;> simp [entry]
    · simp [entry]
  · exact ⟨fun _ => 0, monotone_const, by simp, by decide +kernel⟩
  · rintro v ⟨s, -, h2, rfl⟩
    rw [key s h2]; decide +kernel

end FastExample
end Fruits
