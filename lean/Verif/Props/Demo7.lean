import Verif.Props.Demo6
import Verif.Props.Warp3

/-! # A concrete time warping invariant fruit (property C106) -/

namespace Fruits
namespace Demo

/-- A fruit with two slices: `NRM -> INC -> ISS(EXTENDED, Reals, L1) -> NPI, MPI, END`, and `ISS(Arctic) -> NPI, END`. -/
def w7 : DWorld :=
  { w0 with
    prep := fun a => if a = 0 then ⟨.nrm false, trivial⟩ else ⟨.inc ⟨.int 1, 1, true⟩, trivial⟩
    iss := fun a => if a = 0 then (.iss ⟨.extended, .reals, some (true, .norm .L1 false true none 1)⟩, 0) else (.iss ⟨.single, .arctic, none⟩, 0)
    words := fun _ => WarpExample.words
    sieve := fun a => if a = 0 then ⟨.inc .npi 1 { q := [0, 1] }, trivial⟩ else if a = 1 then ⟨.inc .mpi 1 { q := [0, 1] }, trivial⟩
      else ⟨.seg .end_ { q := [-1, 1], cut := [.float (1 / 2), .int (-1)] }, trivial⟩
    slice := fun s => if s = 0 then { preps := [0, 1], iss := [0], sieves := [0, 1, 2] } else { preps := [], iss := [1], sieves := [0, 2] }
    fruit := fun _ => { name := [], slices := [0, 1] } }

/-- The world after fitting on other data. -/
def w7fit : DWorld := (fruitFit (builtin lib6) rng 0 [[[1, 5, 2, 2]]] [[[1, 5, 2, 2]]] w7).2

theorem w7_fits : fruitFit (builtin lib6) rng 0 [[[1, 5, 2, 2]]] [[[1, 5, 2, 2]]] w7 = (.ok (), w7fit) := by
  have h : (fruitFit (builtin lib6) rng 0 [[[1, 5, 2, 2]]] [[[1, 5, 2, 2]]] w7).1.toOption = some () := by decide +kernel
  unfold w7fit
  generalize fruitFit (builtin lib6) rng 0 [[[1, 5, 2, 2]]] [[[1, 5, 2, 2]]] w7 = r at h ⊢
  obtain ⟨e | u, w'⟩ := r
  · cases h
  · rfl

theorem w7_twi : ∀ s ∈ (w7.fruit 0).slices, TwiSlice w7 s 1 WarpExample.X := by
  intro s hs
  have : s = 0 ∨ s = 1 := by simpa [w7] using hs
  rcases this with rfl | rfl
  · refine ⟨by simp [w7, Sieve.Elastic, Cut.Elastic], by simp [w7], [0], 0, ⟨.extended, .reals, some (true, .norm .L1 false true none 1)⟩, by simp [w7],
      by simp [w7, Prep.Elastic], by simp [w7, World.issAt], ?_, ⟨rfl, rfl⟩, Or.inl ⟨rfl, ⟨1, true, by simp [w7], by simp [w7]⟩, ?_⟩⟩
    · exact WarpExample.simpleIss _ _ (by decide)
    · exact WarpExample.positive
  · refine ⟨by simp [w7, Sieve.Elastic, Cut.Elastic], by simp [w7], [], 1, ⟨.single, .arctic, none⟩, by simp [w7],
      by simp, by simp [w7, World.issAt], ?_, trivial, Or.inr (Or.inl ⟨rfl, by simp [w7], ?_⟩)⟩
    · exact WarpExample.simpleIss _ _ (by decide)
    · exact fun s hs el hel => (WarpExample.positive s hs el hel).1

/-- The hypotheses of `C106_fitted` hold for this fruit. -/
example (c c' : ℕ) : (fruitTransform (builtin lib6) w7fit c' 0 (warp WarpExample.φ 6 WarpExample.X) (warp WarpExample.φ 6 WarpExample.X)).1 =
    (fruitTransform (builtin lib6) w7fit c 0 WarpExample.X WarpExample.X).1 :=
  C106_fitted lib6 ratText_lawful WarpExample.expOne rng w7 w7fit 0 _ _ WarpExample.X w7_twi w7_fits WarpExample.shape (by omega) (by omega)
    WarpExample.warps c c'

/-- The eleven features, computed for the data and for the warped data. -/
example : (fruitTransform (builtin lib6) w7fit 0 0 WarpExample.X WarpExample.X).1.toOption =
      some [[1, 1, 0, 1 / 2, 1, 1 / 4, 0, 1 / 4, 1, 3, 9], [1, 1, 0, 1, 0, 0, 0, 0, 1, 12, 21]] ∧
    (fruitTransform (builtin lib6) w7fit 0 0 (warp WarpExample.φ 6 WarpExample.X) (warp WarpExample.φ 6 WarpExample.X)).1.toOption =
      some [[1, 1, 0, 1 / 2, 1, 1 / 4, 0, 1 / 4, 1, 3, 9], [1, 1, 0, 1, 0, 0, 0, 0, 1, 12, 21]] := by decide +kernel

end Demo
end Fruits
