import Verif.Props.Demo
import Verif.Props.Texts2
import Verif.Props.Summary1

/-! # A concrete slice: its labels are different (property C104); summaries (property C105) -/

namespace Fruits
namespace Demo

/-- The parameters of `Demo` with a text form of the rational numbers. -/
def lib6 : Lib ℚ := { lib with T := ratText }

/-- A slice with `INC`, an ISS with two words, `PPV` and `END` with two cuts. -/
def w6 : DWorld :=
  { w0 with
    words := fun _ => wordList
    sieve := fun a => if a = 0 then ppvHalf else ⟨.seg .end_ { q := [-1, 1], cut := [.int 2, .int (-1)] }, trivial⟩
    slice := fun _ => { preps := [0], iss := [0], sieves := [0, 1] } }

theorem w6_text {k : ℕ} {l : PStr} (h : shortWord (builtin lib6) true (w6.issAt 0) k = .ok l) :
    (k = 0 ∧ l = "[1]".toList) ∨ (k = 1 ∧ l = "[1][1]".toList) := by
  rcases k with _ | _ | k
  · left
    refine ⟨rfl, ?_⟩
    have : (shortWord (builtin lib6) true (w6.issAt 0) 0).toOption = some "[1]".toList := by decide +kernel
    rw [h] at this
    exact Option.some.inj this
  · right
    refine ⟨rfl, ?_⟩
    have : (shortWord (builtin lib6) true (w6.issAt 0) 1).toOption = some "[1][1]".toList := by decide +kernel
    rw [h] at this
    exact Option.some.inj this
  · cases h

/-- The hypotheses of `C104_slice_partial` hold for this slice with six features. -/
example : ∀ c c' : ℕ, (c : ℤ) < 6 → (c' : ℤ) < 6 → ∀ t, sliceLabel (builtin lib6) w6 true .features 0 c = .ok t →
    sliceLabel (builtin lib6) w6 true .features 0 c' = .ok t → c = c' := by
  intro c c' hc hc' t h h'
  refine C104_slice_partial (n := 6) (by simp [w6]) (by decide +kernel) true (by decide +kernel) ?_ ?_ ?_ hc hc' h h'
  · intro i hi k k' l h1 h2
    simp only [w6, List.mem_singleton] at hi
    subst hi
    rcases w6_text h1 with ⟨rfl, rfl⟩ | ⟨rfl, rfl⟩ <;> rcases w6_text h2 with ⟨rfl, h⟩ | ⟨rfl, h⟩ <;>
      first | rfl | exact absurd h (by decide)
  · intro i hi k l h1
    simp only [w6, List.mem_singleton] at hi
    subst hi
    rcases w6_text h1 with ⟨rfl, rfl⟩ | ⟨rfl, rfl⟩ <;> decide
  · have key : ∀ j j' q q' : Fin 2, decide ((q.1 : ℤ) < (builtin lib6).sieveN (w6.sieve j.1)) = true →
        decide ((q'.1 : ℤ) < (builtin lib6).sieveN (w6.sieve j'.1)) = true →
        decide (((builtin lib6).sieveLabel (w6.sieve j.1) q.1).toOption =
          ((builtin lib6).sieveLabel (w6.sieve j'.1) q'.1).toOption) = true → j = j' ∧ q = q' := by decide +kernel
    have get : ∀ {j a : ℕ}, (w6.slice 0).sieves[j]? = some a → j < 2 ∧ a = j := by
      intro j a h
      rcases j with _ | _ | j
      · simpa [w6] using h.symm
      · simpa [w6] using h.symm
      · simp [w6] at h
    have small : ∀ j < 2, (builtin lib6).sieveN (w6.sieve j) ≤ 2 := by decide +kernel
    intro j j' a a' ha ha' q q' l hq hq' h1 h2
    obtain ⟨hj, rfl⟩ := get ha
    obtain ⟨hj', rfl⟩ := get ha'
    have b1 := small _ hj
    have b2 := small _ hj'
    obtain ⟨e1, e2⟩ := key ⟨_, hj⟩ ⟨_, hj'⟩ ⟨q, by omega⟩ ⟨q', by omega⟩ (decide_eq_true hq) (decide_eq_true hq')
      (decide_eq_true (by rw [h1, h2]))
    exact ⟨congrArg Fin.val e1, congrArg Fin.val e2⟩

/-- The labels exist. -/
example : ((List.range 6).map fun c => (sliceLabel (builtin lib6) w6 true .features 0 (c : ℤ)).toOption.isSome) =
    [true, true, true, true, true, true] := by decide +kernel

/-- The hypotheses of `C104_sieve_partial` hold for `END` with two cuts and two intervals of quantiles. -/
example : NumberText ratText ∧
    (Sieve.seg .end_ { q := [-1, 0, 1], cut := [.int 2, .int (-1)] } : Sieve ℚ).Apart := by
  refine ⟨⟨TextExample.laws.float_inj, fun q h => by simpa using TextExample.mem_text h, fun q h => by simpa using TextExample.mem_text h,
    TextExample.laws.float_int⟩, ?_, by decide +kernel⟩
  simp

/-- The texts of the seeds; `repr` of names without quotes. -/
def names : Names (BIss ℚ) (List (IWord ℚ)) (SafeSieve ℚ) := builtinNames fun n => '\'' :: n ++ ['\'']

/-- The fruit of the history of `Demo`: the summary of its second slice. -/
example : ((sliceSummary K names w 1).toOption.map (psplit '\n')) = some (
    ["           FruitSlice -> 2            ",
     "--------------------------------------",
     "Preparateurs (0):                     ",
     "                                      ",
     "ISS Calculators (1):                  ",
     "    + ISS -> 2                        ",
     "       | words: 2                     ",
     "       | semiring: Reals              ",
     "       | weighting: None              ",
     "Sieves (1):                           ",
     "    + END -> 1                        "].map String.toList) := by decide +kernel

/-- The hypotheses of `C105_fruit_partial` hold for the fruit of the history: its summary has 80 characters in each line. -/
example : ∃ t, fruitSummary K names w 0 = .ok t ∧ (psplit '\n' t).length = 18 ∧
    (∀ l ∈ psplit '\n' t, l.length = 80) ∧ (∀ s ∈ (w.fruit 0).slices, (w.slice s).iss ≠ []) ∧
    (∀ s ∈ (w.fruit 0).slices, OneLine K names w s) ∧ '\n' ∉ names.repr (w.fruit 0).name := by
  have key : ((fruitSummary K names w 0).toOption.map fun t =>
    decide ((psplit '\n' t).length = 18 ∧ ∀ l ∈ psplit '\n' t, l.length = 80)) = some true := by decide +kernel
  rcases h : fruitSummary K names w 0 with e | t
  · rw [h] at key; cases key
  rw [h] at key
  have key := of_decide_eq_true (Option.some.inj key)
  refine ⟨t, rfl, key.1, key.2, by decide +kernel, ?_, by decide +kernel⟩
  have h1 : ∀ s ∈ (w.fruit 0).slices, ∀ a ∈ (w.slice s).preps, '\n' ∉ K.prepLabel (w.prep a) := by decide +kernel
  have h2 : ∀ s ∈ (w.fruit 0).slices, ∀ a ∈ (w.slice s).iss, '\n' ∉ names.iss (w.issAt a).1 ∧ '\n' ∉ names.semiring (w.issAt a).1 ∧
    names.weighting (w.issAt a).1 = none := by decide +kernel
  have h3 : ∀ s ∈ (w.fruit 0).slices, ∀ a ∈ (w.slice s).sieves, '\n' ∉ names.sieve (w.sieve a) := by decide +kernel
  intro s hs
  refine ⟨h1 s hs, fun a ha => ⟨(h2 s hs a ha).1, (h2 s hs a ha).2.1, ?_⟩, h3 s hs⟩
  intro t ht
  rw [(h2 s hs a ha).2.2] at ht
  cases ht

/-- The hypotheses of `C105_counterexample` hold for a slice with nothing but a sieve. -/
example : let w' : DWorld := { w0 with slice := fun _ => { sieves := [0] } }
    (w'.slice 0).iss = [] ∧ OneLine K names w' 0 ∧ ∃ t, sliceSummary K names w' 0 = .ok t := by
  refine ⟨rfl, ⟨by simp, by simp, ?_⟩, _, rfl⟩
  intro a _
  show '\n' ∉ "END".toList
  decide

end Demo
end Fruits
