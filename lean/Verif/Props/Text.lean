import Verif.Cache
import Mathlib.Data.Rat.Defs

/-! # A text form of numbers

The theorems about the cache are about any text form of floats with `FloatText.Lawful`.  Here is one for the rational numbers, so
that hypothesis can be met. -/

namespace Fruits

/-- A rational number as text: the sign, the numerator and the denominator in unary notation. -/
def ratText : FloatText ℚ where
  toText q := (if q.num < 0 then ['-'] else []) ++ (List.replicate q.num.natAbs 'n' ++ List.replicate q.den 'd')
  ofText s := some (((if '-' ∈ s then -1 else 1) * ((s.filter (· == 'n')).length : ℚ)) / ((s.filter (· == 'd')).length : ℚ))

theorem ratText_lawful : ratText.Lawful where
  ofText_toText := by
    intro q
    have h1 : (((ratText.toText q).filter (· == 'n')).length : ℕ) = q.num.natAbs := by
      unfold ratText
      by_cases h : q.num < 0 <;> simp [h, List.filter_cons, List.filter_replicate]
    have h2 : (((ratText.toText q).filter (· == 'd')).length : ℕ) = q.den := by
      unfold ratText
      by_cases h : q.num < 0 <;> simp [h, List.filter_cons, List.filter_replicate]
    have h3 : '-' ∈ ratText.toText q ↔ q.num < 0 := by
      unfold ratText
      by_cases h : q.num < 0 <;> simp [h, List.mem_replicate]
    show some _ = some q
    rw [h1, h2]
    congr 1
    have h4 : ((if '-' ∈ ratText.toText q then -1 else 1 : ℚ) * (q.num.natAbs : ℚ)) = (q.num : ℚ) := by
      by_cases h : q.num < 0
      · rw [if_pos (h3.2 h)]
        have : (q.num.natAbs : ℤ) = -q.num := by omega
        rw [show (q.num.natAbs : ℚ) = ((q.num.natAbs : ℤ) : ℚ) from (Int.cast_natCast _).symm, this]
        push_cast; ring
      · rw [if_neg fun hh => h (h3.1 hh)]
        have : (q.num.natAbs : ℤ) = q.num := by omega
        rw [one_mul, show (q.num.natAbs : ℚ) = ((q.num.natAbs : ℤ) : ℚ) from (Int.cast_natCast _).symm, this]
    rw [h4]
    exact q.num_div_den
  no_colon := by
    intro q
    unfold ratText
    by_cases h : q.num < 0 <;> simp [h, List.mem_replicate]

end Fruits
