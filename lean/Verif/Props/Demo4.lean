import Verif.Props.Demo3
import Verif.Props.Fruit13
import Verif.Props.Fruit14
import Verif.Props.Text

/-! # Concrete histories: a failed fit and the cache (properties C78, C85) -/

namespace Fruits
namespace Demo

/-- `DIM(INC(zero_padding=False), [1])`: raises for data with one dimension. -/
def dimPrep : SafePrep ℚ := ⟨.dim (.inc { zeroPadding := false }) [1], trivial⟩

/-- A fruit with two slices, the second one needs data with two dimensions. -/
def ops4 : List DOp :=
  [.newPrep dimPrep, .newWords wordList, .newIss issSingle 0, .newSieve ppvHalf, .newFruit "fruit".toList,
    .fruitAdd 0 [.iss 0, .sieve 0], .cut 0 none, .fruitAdd 0 [.prep 0, .iss 0, .sieve 0]]

/-- Data with two dimensions. -/
def X4 : Data ℚ := [[[1, 2, 4], [0, 1, 1]], [[0, 1, 0], [2, 0, 5]]]

/-- The world after `ops4`: nothing is fitted. -/
def w4 : DWorld := runOps K rng ops4 w0

theorem hist4 : Hist K rng w0 ops4 w4 := by
  refine Hist.run _ ?_
  simp only [LiveAll, ops4, Op.Live, List.mem_cons, List.not_mem_nil, or_false, forall_eq_or_imp, forall_eq, Arg.Live, and_true,
    true_and]
  decide +kernel

/-- The fruit is fitted on `X4`. -/
def w4fit : DWorld := (fruitFit K rng 0 X4 X4 w4).2

theorem hist4fit : Hist K rng w0 (ops4 ++ [.fruitFit 0 (some X4) X4]) w4fit := hist4.snoc (.fruitFit 0 (some X4) X4) (show 0 < w4.nFruit by decide +kernel)

/-- **C78** is false: after a successful `fit` on `X4`, a `fit` on the one-dimensional data `Y` raises in the second slice.  A
following `transform` returns features, and they are a mixture: the columns of the first slice come from sieves fitted on `Y`, the
others from the earlier fit. -/
theorem C78_counterexample :
    (fruitFit K rng 0 X4 X4 w4).1.toOption = some () ∧
    (fruitTransform K w4fit 0 0 X4 X4).1.toOption = some [[2/3, 2/3, 2/3, 2/3], [0, 0, 0, 0]] ∧
    (fruitFit K rng 0 Y Y w4fit).1.toOption = none ∧
    (fruitTransform K (fruitFit K rng 0 Y Y w4fit).2 0 0 X4 X4).1.toOption = some [[0, 1/3, 2/3, 2/3], [0, 0, 0, 0]] := by
  decide +kernel

/-- The hypotheses of `C78_partial` hold in this history. -/
example : ∃ pre s post w₁, (w4fit.fruit 0).slices = pre ++ s :: post ∧ fitSlices K rng Y Y pre w4fit = (.ok (), w₁) ∧
    (∃ e, (sliceFit K rng s Y Y w₁).1 = .error e) ∧ ∀ t ∈ s :: post, t ∉ pre →
      FittedSince K rng w0 t (ops4 ++ [.fruitFit 0 (some X4) X4]) := by
  rcases hf : fruitFit K rng 0 Y Y w4fit with ⟨e | u, w'⟩
  swap
  · have h := C78_counterexample.2.2.1; rw [hf] at h; cases h
  have h := C78_counterexample.2.2.2
  rw [hf] at h
  rcases hr : fruitTransform K w' 0 0 X4 X4 with ⟨e' | A, tr⟩
  · rw [hr] at h; cases h
  obtain ⟨pre, s, post, w₁, h1, h2, h3, h4⟩ := C78_partial w0_empty hist4fit (by decide +kernel) hf hr
  exact ⟨pre, s, post, w₁, h1, h2, ⟨e, h3⟩, h4⟩

/-- A first fit that raises (`C78_first_fit_partial`): no slice has been fitted, and `transform` raises. -/
example : (fruitFit K rng 0 Y Y w4).1.toOption = none ∧ (w4.fruit 0).slices = [0, 1] ∧ ((w4.slice 0).fitted || (w4.slice 1).fitted) = false ∧
    (fruitTransform K (fruitFit K rng 0 Y Y w4).2 0 0 X4 X4).1.toOption = none := by decide +kernel

/-! ### C85 -/

/-- The library over the rational numbers with a lawful text form. -/
def lib5 : Lib ℚ := { lib with T := ratText }

/-- Library seeds. -/
abbrev K5 := builtin lib5

/-- Random draws are the largest possible ones: the sample is the last series. -/
def rng5 : ℕ → Rng ℚ := fun _ => highRng

/-- A fruit with the preparateur `WIN(0, 1/2)`, an ISS and `PPV(1/2)`; `fit_sample_size` is 1. -/
def ops5 : List DOp :=
  [.newPrep ⟨.win ⟨0, 1/2⟩, trivial⟩, .newWords wordList, .newIss issSingle 0, .newSieve ppvHalf, .newFruit "fruit".toList,
    .fruitAdd 0 [.prep 0, .iss 0, .sieve 0]]

/-- The world after `ops5`. -/
def w5 : DWorld := runOps K5 rng5 ops5 w0

/-- Two series: the first one moves at the end, the second one at the beginning. -/
def X5 : Data ℚ := [[[1, 1, 1, 9]], [[0, 5, 6, 6]]]

/-- **C85** is false: `fit` samples the second series, but uses the window of the first one.  The features of the data after `fit`
are not those that come from a fit with the coquantiles of the sampled series. -/
theorem C85_counterexample :
    (selectSample (rng5 0) (w5.slice 0).sample X5).toOption = some [[[0, 5, 6, 6]]] ∧
    (fruitFit K5 rng5 0 X5 X5 w5).1.toOption = some () ∧
    (fruitFit K5 rng5 0 [[[0, 5, 6, 6]]] X5 w5).1.toOption = some () ∧
    ((K5.prepTransform (w5.prep 0) X5 [[[0, 5, 6, 6]]]).toOption = some [[[0, 0, 6, 0]]]) ∧
    ((K5.prepTransform (w5.prep 0) [[[0, 5, 6, 6]]] [[[0, 5, 6, 6]]]).toOption = some [[[0, 0, 0, 0]]]) ∧
    (fruitTransform K5 (fruitFit K5 rng5 0 X5 X5 w5).2 0 0 X5 X5).1.toOption ≠
      (fruitTransform K5 (fruitFit K5 rng5 0 [[[0, 5, 6, 6]]] X5 w5).2 0 0 X5 X5).1.toOption := by
  decide +kernel

/-- The hypotheses of `C85_partial` hold for the first slice of `Demo.w`, which has an `INC`, an ISS and two sieves. -/
example (C : Data ℚ) : sliceFit K rng 0 C X w = sliceFit K rng 0 X X w :=
  C85_partial (builtin_cacheFree lib) rng 0 C X X w
    (by
      have e : (w.slice 0).preps = [0] := by decide +kernel
      rw [e]
      intro a ha
      rw [List.mem_singleton] at ha
      subst ha
      have h : (match (w.prep 0).1 with | .inc _ => true | _ => false) = true := by decide +kernel
      show (w.prep 0).1.cacheFree
      generalize (w.prep 0).1 = p at h ⊢
      cases p <;> first | trivial | cases h)
    (by
      have e : (w.slice 0).iss = [0] := by decide +kernel
      rw [e]
      intro a ha
      rw [List.mem_singleton] at ha
      subst ha
      have h : (match (w.iss 0).1 with | .iss o => o.weighting.isNone | _ => false) = true := by decide +kernel
      generalize (w.iss 0).1 = i at h ⊢
      cases i with
      | cos _ => trivial
      | iss o =>
        intro k hk
        simp only at h
        rw [hk] at h
        cases h)

end Demo
end Fruits
