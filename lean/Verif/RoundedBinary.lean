import Verif.Rounded
import Mathlib.Data.Rat.Floor

/-!
# Binary floating point with `p + 1` significant bits satisfies the laws of `Fp`

`Fp.binary p`: round to the nearest number with `p + 1` significant bits (ties away from zero), unbounded exponent; `p = 52` is
the significand of `float64`.  So the hypotheses of the theorems about `Fp` are met by real formats.
-/

namespace Fruits
variable {R : Type} [Field R] [LinearOrder R] [IsStrictOrderedRing R] [FloorRing R]

/-- The weight of the last significant bit of `x > 0`. -/
def ulp (p : ℕ) (x : R) : R := (2 : R) ^ (Int.log 2 x - p)

/-- Rounding of a positive number. -/
def rndPos (p : ℕ) (x : R) : R := round (x / ulp p x) * ulp p x

/-- Rounding of any number. -/
def rndBin (p : ℕ) (x : R) : R := if 0 < x then rndPos p x else if x < 0 then -rndPos p (-x) else 0

theorem ulp_pos (p : ℕ) (x : R) : 0 < ulp p x := zpow_pos (by norm_num) _

theorem two_pow_le {a b : ℤ} (h : a ≤ b) : (2 : R) ^ a ≤ (2 : R) ^ b := zpow_le_zpow_right₀ (by norm_num) h

theorem ulp_mul (p : ℕ) (x : R) : (2 : R) ^ p * ulp p x = (2 : R) ^ Int.log 2 x := by
  rw [ulp, ← zpow_natCast, ← zpow_add₀ (by norm_num)]; congr 1; ring

theorem ulp_mul' (p : ℕ) (x : R) : (2 : R) ^ (p + 1) * ulp p x = (2 : R) ^ (Int.log 2 x + 1) := by
  rw [ulp, ← zpow_natCast, ← zpow_add₀ (by norm_num)]; congr 1; push_cast; ring

theorem log_le {x : R} (h : 0 < x) : (2 : R) ^ Int.log 2 x ≤ x := by
  simpa using Int.zpow_log_le_self (b := 2) one_lt_two h

theorem lt_log {x : R} : x < (2 : R) ^ (Int.log 2 x + 1) := by
  simpa using Int.lt_zpow_succ_log_self (b := 2) one_lt_two x

theorem round_mono' {x y : R} (h : x ≤ y) : round x ≤ round y := by
  rw [round_eq, round_eq]; exact Int.floor_mono (by linarith)

theorem mant_low (p : ℕ) {x : R} (h : 0 < x) : (2 : ℤ) ^ p ≤ round (x / ulp p x) := by
  have h1 : (((2 : ℤ) ^ p : ℤ) : R) ≤ x / ulp p x := by
    rw [le_div_iff₀ (ulp_pos p x)]; push_cast; rw [ulp_mul]; exact log_le h
  have := round_mono' h1
  rwa [round_intCast] at this

theorem mant_high (p : ℕ) (x : R) : round (x / ulp p x) ≤ (2 : ℤ) ^ (p + 1) := by
  have h1 : x / ulp p x ≤ (((2 : ℤ) ^ (p + 1) : ℤ) : R) := by
    rw [div_le_iff₀ (ulp_pos p x)]; push_cast; rw [ulp_mul']; exact lt_log.le
  have := round_mono' h1
  rwa [round_intCast] at this

theorem rndPos_low (p : ℕ) {x : R} (h : 0 < x) : (2 : R) ^ Int.log 2 x ≤ rndPos p x := by
  rw [← ulp_mul p, rndPos]
  refine mul_le_mul_of_nonneg_right ?_ (ulp_pos p x).le
  exact_mod_cast mant_low p h

theorem rndPos_high (p : ℕ) (x : R) : rndPos p x ≤ (2 : R) ^ (Int.log 2 x + 1) := by
  rw [← ulp_mul' p, rndPos]
  refine mul_le_mul_of_nonneg_right ?_ (ulp_pos p x).le
  exact_mod_cast mant_high p x

theorem rndPos_pos (p : ℕ) {x : R} (h : 0 < x) : 0 < rndPos p x :=
  lt_of_lt_of_le (zpow_pos (by norm_num) _) (rndPos_low p h)

theorem rndPos_err (p : ℕ) {x : R} (h : 0 < x) : |rndPos p x - x| ≤ 1 / 2 ^ (p + 1) * x := by
  have e : rndPos p x - x = (round (x / ulp p x) - x / ulp p x) * ulp p x := by
    rw [sub_mul, div_mul_cancel₀ _ (ulp_pos p x).ne', rndPos]
  rw [e, abs_mul, abs_of_pos (ulp_pos p x)]
  have h1 : |(round (x / ulp p x) : R) - x / ulp p x| ≤ 1 / 2 := by
    rw [abs_sub_comm]; exact abs_sub_round _
  have h2 : ulp p x ≤ 1 / 2 ^ p * x := by
    have := log_le h
    rw [← ulp_mul p] at this
    rw [one_div, inv_mul_eq_div, le_div_iff₀ (by positivity)]
    linarith
  calc |(round (x / ulp p x) : R) - x / ulp p x| * ulp p x
      ≤ 1 / 2 * (1 / 2 ^ p * x) := mul_le_mul h1 h2 (ulp_pos p x).le (by norm_num)
    _ = 1 / 2 ^ (p + 1) * x := by rw [pow_succ]; field_simp

theorem rndPos_mono (p : ℕ) {x y : R} (h : 0 < x) (hxy : x ≤ y) : rndPos p x ≤ rndPos p y := by
  have hl : Int.log 2 x ≤ Int.log 2 y := Int.log_mono_right h hxy
  rcases hl.lt_or_eq with hl | hl
  · exact (rndPos_high p x).trans ((two_pow_le (by omega)).trans (rndPos_low p (h.trans_le hxy)))
  · have hu : ulp p x = ulp p y := by simp [ulp, hl]
    rw [rndPos, rndPos, ← hu]
    refine mul_le_mul_of_nonneg_right ?_ (ulp_pos p x).le
    exact_mod_cast round_mono' (div_le_div_of_nonneg_right hxy (ulp_pos p x).le)

theorem rndPos_of_mant (p : ℕ) {y : R} (m : ℤ) (h : y = m * ulp p y) : rndPos p y = y := by
  have : y / ulp p y = m := by
    rw [div_eq_iff (ulp_pos p y).ne']; exact h
  rw [rndPos, this, round_intCast, ← h]

theorem rndPos_two_zpow (p : ℕ) (k : ℤ) : rndPos p ((2 : R) ^ k) = (2 : R) ^ k := by
  refine rndPos_of_mant p (2 ^ p) ?_
  push_cast
  rw [ulp_mul]
  have : Int.log 2 ((2 : R) ^ k) = k := by
    simpa using Int.log_zpow (R := R) (b := 2) one_lt_two k
  rw [this]

theorem rndPos_idem (p : ℕ) {x : R} (h : 0 < x) : rndPos p (rndPos p x) = rndPos p x := by
  rcases (mant_high p x).lt_or_eq with hm | hm
  · have hb : Int.log 2 (rndPos p x) = Int.log 2 x := by
      apply le_antisymm
      · have : rndPos p x < ((2 : ℕ) : R) ^ (Int.log 2 x + 1) := by
          push_cast
          rw [← ulp_mul' p, rndPos]
          refine mul_lt_mul_of_pos_right ?_ (ulp_pos p x)
          exact_mod_cast hm
        have := (Int.lt_zpow_iff_log_lt (R := R) one_lt_two (rndPos_pos p h)).1 this
        omega
      · refine (Int.zpow_le_iff_le_log (R := R) one_lt_two (rndPos_pos p h)).1 ?_
        push_cast
        exact rndPos_low p h
    have hu : ulp p (rndPos p x) = ulp p x := by simp [ulp, hb]
    refine rndPos_of_mant p (round (x / ulp p x)) ?_
    rw [hu]; rfl
  · have : rndPos p x = (2 : R) ^ (Int.log 2 x + 1) := by
      rw [← ulp_mul' p, rndPos, hm]; push_cast; rfl
    rw [this, rndPos_two_zpow]

theorem rndBin_pos (p : ℕ) {x : R} (h : 0 < x) : rndBin p x = rndPos p x := by simp [rndBin, h]
theorem rndBin_zero (p : ℕ) : rndBin p (0 : R) = 0 := by simp [rndBin]
theorem rndBin_neg (p : ℕ) (x : R) : rndBin p (-x) = -rndBin p x := by
  rcases lt_trichotomy x 0 with h | h | h
  · simp [rndBin, h, not_lt.2 h.le]
  · subst h; simp [rndBin]
  · simp [rndBin, h, h.le]

theorem rndBin_mono (p : ℕ) : Monotone (rndBin p : R → R) := by
  have hp : ∀ {x y : R}, 0 < x → x ≤ y → rndBin p x ≤ rndBin p y := fun h hxy => by
    rw [rndBin_pos p h, rndBin_pos p (h.trans_le hxy)]; exact rndPos_mono p h hxy
  have hs : ∀ {x : R}, 0 ≤ x → 0 ≤ rndBin p x := fun {x} h => by
    rcases h.lt_or_eq with h | h
    · rw [rndBin_pos p h]; exact (rndPos_pos p h).le
    · rw [← h, rndBin_zero]
  intro x y hxy
  rcases lt_or_ge 0 x with hx | hx
  · exact hp hx hxy
  · rcases lt_or_ge y 0 with hy | hy
    · have := hp (neg_pos.2 hy) (neg_le_neg hxy)
      rw [rndBin_neg, rndBin_neg] at this
      exact neg_le_neg_iff.1 this
    · have h1 := hs (neg_nonneg.2 hx)
      rw [rndBin_neg] at h1
      exact (neg_nonneg.1 h1).trans (hs hy)

/-- `p + 1` significant bits, round to nearest, unbounded exponent. -/
def Fp.binary (p : ℕ) : Fp R where
  rnd := rndBin p
  u := 1 / 2 ^ (p + 1)
  u_nonneg := by positivity
  u_lt_one := by
    rw [div_lt_one (by positivity)]
    exact one_lt_pow₀ (by norm_num) (by omega)
  err x := by
    have hp : ∀ {x : R}, 0 < x → |rndBin p x - x| ≤ 1 / 2 ^ (p + 1) * |x| := fun {x} h => by
      rw [rndBin_pos p h, abs_of_pos h]; exact rndPos_err p h
    rcases lt_trichotomy x 0 with h | h | h
    · have := hp (neg_pos.2 h)
      rw [rndBin_neg, ← neg_add', abs_neg, abs_neg] at this
      rwa [sub_eq_add_neg]
    · subst h; simp [rndBin_zero]
    · exact hp h
  mono := rndBin_mono p
  idem x := by
    have hp : ∀ {x : R}, 0 < x → rndBin p (rndBin p x) = rndBin p x := fun {x} h => by
      rw [rndBin_pos p h, rndBin_pos p (rndPos_pos p h)]; exact rndPos_idem p h
    rcases lt_trichotomy x 0 with h | h | h
    · have := hp (neg_pos.2 h)
      rw [rndBin_neg, rndBin_neg] at this
      exact neg_inj.1 this
    · subst h; simp [rndBin_zero]
    · exact hp h
  one := by
    rw [rndBin_pos p zero_lt_one]
    simpa using rndPos_two_zpow (R := R) p 0

/-- `0.1` is not a machine number with 53 significant bits. -/
example : (Fp.binary 52 : Fp ℚ).rnd (1 / 10) ≠ 1 / 10 := by decide +kernel

end Fruits
