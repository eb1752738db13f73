import Verif.Props.Offset2

/-! # C168: adding constants, part 3: the hypotheses are met, and preparateurs for which the level does matter -/

namespace Fruits
set_option linter.unusedSectionVars false

/-- A fruit with two slices: `NEW(INC)`, `NRM` and `MAV(2)` with an ISS weighted by `L2` of the raw data and `CPV([0.5])`, `MAX`; and `INC` with the
same ISS and `END` at a half of the `L1` length and at the end. -/
def offsetDemo (R : Type) [Field R] [LinearOrder R] [FloorRing R] : World R (SafePrep R) (BIss R) (List (IWord R)) (SafeSieve R) where
  prep := fun a => if a = 1 then ⟨.new (some (.inc {})), trivial⟩ else if a = 2 then ⟨.nrm false, trivial⟩
    else if a = 3 then ⟨.mav { given := .int 2 }, trivial⟩ else ⟨.inc {}, trivial⟩
  iss := fun _ => (.iss ⟨.single, .reals, some (false, .norm .L2 false false none 2)⟩, 0)
  words := fun _ => [.simple ⟨[[1]], 1, "[1]".toList, none⟩, .simple ⟨[[1], [1]], 1, "[1][1]".toList, none⟩]
  sieve := fun a => if a = 0 then ⟨.cpv ⟨[(1/2, false)], 1, false, none⟩, by intro h; cases h⟩
    else if a = 1 then ⟨.seg .max { q := [0, 1] }, trivial⟩ else ⟨.seg .end_ { q := [0, 1], cut := [.float (1/2), .int (-1)] }, trivial⟩
  slice := fun s => if s = 0 then { preps := [1, 2, 3], iss := [0], sieves := [0, 1] } else { preps := [4], iss := [0], sieves := [2] }
  fruit := fun _ => { slices := [0, 1] }

theorem offsetDemo_removes (R : Type) [Field R] [LinearOrder R] [IsStrictOrderedRing R] [FloorRing R] :
    ∀ s ∈ ((offsetDemo R).fruit 0).slices, ∃ pre r post, ((offsetDemo R).slice s).preps = pre ++ r :: post ∧
      (∀ a ∈ pre, ((offsetDemo R).prep a).1.KeepsOffset) ∧ ((offsetDemo R).prep r).1.RemovesOffset := by
  intro s hs
  have hs : s = 0 ∨ s = 1 := by simpa [offsetDemo] using hs
  rcases hs with rfl | rfl
  · refine ⟨[1], 2, [3], rfl, ?_, rfl⟩
    intro a ha
    obtain rfl : a = 1 := by simpa using ha
    exact Or.inr ⟨rfl, Nat.one_pos⟩
  · exact ⟨[], 4, [], rfl, by simp, ⟨rfl, Nat.one_pos⟩⟩

/-- `Demo.X` with different constants added to the rows. -/
def offsetX : Data ℚ := [[[5, 6, 8]], [[-10, -9, -10]]]

theorem offsetX_offsets : SeriesOffsets Demo.X offsetX := by
  refine .cons ⟨4, ?_⟩ (.cons ⟨-10, ?_⟩ .nil) <;> norm_num

example [NpMath ℚ] (L : Lib ℚ) (ρ : ℕ → Rng ℚ) : fruitFit (builtin L) ρ 0 offsetX offsetX (offsetDemo ℚ) = fruitFit (builtin L) ρ 0 Demo.X Demo.X (offsetDemo ℚ) :=
  (C168_fruit L ρ (offsetDemo_removes ℚ) offsetX_offsets.offsets).1

open Demo in
/-- The fit succeeds and the features are not trivial. -/
example : (fruitFit K rng 0 Demo.X Demo.X (offsetDemo ℚ)).1.toOption = some () ∧
    (fruitTransform K (fruitFit K rng 0 Demo.X Demo.X (offsetDemo ℚ)).2 0 0 Demo.X Demo.X).1.toOption = some [[1/2, 5/6, 0, 1/9, 1, 3, 0, 2], [1/2, 1, 0, 1/4, 1, 0, 0, -1]] ∧
    (fruitTransform K (fruitFit K rng 0 offsetX offsetX (offsetDemo ℚ)).2 0 0 offsetX offsetX).1.toOption = some [[1/2, 5/6, 0, 1/9, 1, 3, 0, 2], [1/2, 1, 0, 1/4, 1, 0, 0, -1]] := by
  decide +kernel

/-- Preparateurs of the two classes: `DIM(CTS(1), 0)`, `NEW(STD())`, `FFN()`, `INC(depth=2)`; and some that belong to neither. -/
example : (Prep.dim (.cts { s := 1 }) [0] : Prep ℚ).KeepsOffset ∧ (Prep.new (some (.std { eps := 1/100000 })) : Prep ℚ).KeepsOffset ∧
    (Prep.ffn {} : Prep ℚ).RemovesOffset ∧ (Prep.inc { depth := 2 } : Prep ℚ).RemovesOffset ∧ ¬ (Prep.inc { zeroPadding := false } : Prep ℚ).RemovesOffset ∧
    (Prep.nrm true : Prep ℚ).RemovesSeriesOffset ∧ ¬ (Prep.nrm true : Prep ℚ).RemovesOffset := by
  simp [Prep.KeepsOffset, Prep.RemovesOffset, Prep.RemovesSeriesOffset]

variable {R : Type} [Field R] [LinearOrder R] [IsStrictOrderedRing R] [FloorRing R]

/-- **C168 (the condition is needed).** The moving average puts zeros in front (`transform.py:226-239`), so `MAV(2)` followed by `INC()` does depend on
the level of a series although both only look at windows of the series: a constant series gives zeros, or a jump of the size of the constant. -/
theorem C168_mav_counterexample [NpMath R] (T : FloatText R) (C : Data R) :
    Offsets ([[[0, 0, 0]]] : Data R) [[[1, 1, 1]]] ∧
    ((Prep.mav { given := .int 2, w := some 2 } : Prep R).transformC T C [[[0, 0, 0]]] >>= (Prep.inc {} : Prep R).transformC T C) ≠
      ((Prep.mav { given := .int 2, w := some 2 } : Prep R).transformC T C [[[1, 1, 1]]] >>= (Prep.inc {} : Prep R).transformC T C) := by
  refine ⟨.cons (.cons ⟨1, by simp⟩ .nil) .nil, ?_⟩
  have e0 : (Prep.mav { given := .int 2, w := some 2 } : Prep R).transformC T C [[[0, 0, 0]]] = .ok [[[0, 0, 0]]] := by
    simp [Prep.transformC, MAV.transform, mapRows, MAV.row, List.range', slc, pyClip, zeros]
  have e1 : (Prep.mav { given := .int 2, w := some 2 } : Prep R).transformC T C [[[1, 1, 1]]] = .ok [[[0, 1, 1]]] := by
    simp [Prep.transformC, MAV.transform, mapRows, MAV.row, List.range', slc, pyClip, zeros]
  rw [e0, e1]
  simp [Prep.transformC, INC.transform, mapRowsM, INC.loop, Shift.eval, increments1, slcFrom, slcTo, pyClip, vsub, setSlc, zeros]

end Fruits
