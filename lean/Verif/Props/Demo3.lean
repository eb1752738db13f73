import Verif.Props.Demo
import Verif.Props.Builtin2

/-! # Concrete histories: refitting and fitting slices alone (properties C77, C86) -/

namespace Fruits
namespace Demo

/-- Other training data. -/
def Y : Data ℚ := [[[5, 0, 5, 1]], [[2, 2, 1, 7]], [[0, 3, 1, 1]]]

/-- The fruit of `Demo.ops` with its first slice, not fitted yet. -/
def wBuilt : DWorld := runOps K rng (ops.take 7) w0

theorem histBuilt : Hist K rng w0 (ops.take 7) wBuilt := by
  refine Hist.run _ ?_
  simp only [LiveAll, ops, List.take, Op.Live, List.mem_cons, List.not_mem_nil, or_false, forall_eq_or_imp, forall_eq, Arg.Live, and_true,
    true_and]
  decide +kernel

/-- It is fitted on other data, another preparateur is made, and it is fitted twice more. -/
def later : List DOp := [.fruitFit 0 none Y, .newPrep incPrep, .fruitFit 0 none X, .fit 0 none Y]

/-- The world after `later`. -/
def wLater : DWorld := runOps K rng later wBuilt

theorem histLater : Hist K rng wBuilt later wLater := by
  refine Hist.run _ ?_
  simp only [LiveAll, later, Op.Live, List.mem_cons, List.not_mem_nil, or_false, forall_eq_or_imp, forall_eq, Arg.Live, and_true,
    true_and]
  decide +kernel

theorem sampleIs1 {k : IntOrFloat ℚ} (h : (match k with | .int k => k | .float _ => 0) = 1) : k = .int 1 := by
  cases k with
  | int k => simp only at h; rw [h]
  | float _ => cases h

/-- The hypotheses of `C77_refit` hold, the fits succeed, and the fit on `Y` was not the same as the one on `X`. -/
example : (fruitFit K rng 0 X X wLater).1 = (fruitFit K rng 0 X X wBuilt).1 ∧ (fruitFit K rng 0 X X wBuilt).1 = .ok () ∧
    (∀ (n : ℕ) (C' X' : Data ℚ) (B : List (List ℚ)) (tr : Trace ℚ ℚ),
      fruitTransform K (fruitFit K rng 0 X X wLater).2 n 0 C' X' = (.ok B, tr) ↔
      fruitTransform K (fruitFit K rng 0 X X wBuilt).2 n 0 C' X' = (.ok B, tr)) ∧
    (fruitTransform K wLater 0 0 X X).1.toOption ≠ (fruitTransform K (fruitFit K rng 0 X X wLater).2 0 0 X X).1.toOption := by
  have h : (fruitFit K rng 0 X X wBuilt).1 = .ok () := by decide +kernel
  have key := C77_refit (builtin_countsRight lib) (builtin_keepsN lib) (builtin_refits lib) w0_empty histBuilt histLater (f := 0)
    (by decide +kernel) (by decide +kernel)
    (by
      intro s hs
      have e : (wBuilt.fruit 0).slices = [0] := by decide +kernel
      rw [e, List.mem_singleton] at hs
      subst hs
      refine ⟨by decide +kernel, by decide +kernel, by decide +kernel, ?_⟩
      exact (sampleIs1 (k := (wLater.slice 0).sample) (by decide +kernel)).trans
        (sampleIs1 (k := (wBuilt.slice 0).sample) (by decide +kernel)).symm)
    (by
      intro o ho s _
      simp only [later, List.mem_cons, List.not_mem_nil, or_false] at ho
      rcases ho with rfl | rfl | rfl | rfl <;> exact fun h => h)
    (ρ₁ := rng) (ρ₂ := rng) (fun _ => rfl) X X
  exact ⟨key.1, h, key.2 h, by decide +kernel⟩

/-- A fruit with two slices that have no seeds in common (but share the list of words), and its `fit`. -/
def ops2 : List DOp :=
  [.newPrep incPrep, .newWords wordList, .newIss issSingle 0, .newIss issSingle 0, .newSieve ppvHalf, .newSieve endSieve,
    .newFruit "fruit".toList, .fruitAdd 0 [.prep 0, .iss 0, .sieve 0, .sieve 1], .cut 0 none, .fruitAdd 0 [.iss 1, .sieve 0]]

/-- The world after `ops2`. -/
def w2 : DWorld := runOps K rng ops2 w0

theorem hist2 : Hist K rng w0 ops2 w2 := by
  refine Hist.run _ ?_
  simp only [LiveAll, ops2, Op.Live, List.mem_cons, List.not_mem_nil, or_false, forall_eq_or_imp, forall_eq, Arg.Live, and_true,
    true_and]
  decide +kernel

theorem noShared2 : ∀ s ∈ (w2.fruit 0).slices, ∀ t ∈ (w2.fruit 0).slices, s ≠ t → NoShared w2 s t := by
  have e : (w2.fruit 0).slices = [0, 1] := by decide +kernel
  have a : (w2.slice 0).preps = [0] ∧ (w2.slice 1).preps = [] ∧ (w2.slice 0).iss = [0] ∧ (w2.slice 1).iss = [1] := by decide +kernel
  obtain ⟨a1, a2, a3, a4⟩ := a
  rw [e]
  intro s hs t ht hst
  simp only [List.mem_cons, List.not_mem_nil, or_false] at hs ht
  rcases hs with rfl | rfl <;> rcases ht with rfl | rfl
  · exact absurd rfl hst
  · rw [NoShared, a1, a2, a3, a4]; simp
  · rw [NoShared, a1, a2, a3, a4]; simp
  · exact absurd rfl hst

/-- The hypotheses of `C86_features` hold, and there are features. -/
example : ∃ As : List (List (List ℚ)),
    List.Forall₂ (fun s B => ∃ r w'', sliceFit K rng s X X { w2 with rnd := r } = (.ok (), w'') ∧
      (sliceTransform K w'' 0 s Y Y).1 = .ok B) [0, 1] As ∧
    ∀ i < Y.length, (fruitTransform K (fruitFit K rng 0 X X w2).2 0 0 Y Y).1.toOption.map (·.getD i []) =
      some (As.flatMap fun B => B.getD i []) := by
  have e : (w2.fruit 0).slices = [0, 1] := by decide +kernel
  have h : (fruitFit K rng 0 X X w2).1 = .ok () := by decide +kernel
  have h' : (fruitTransform K (fruitFit K rng 0 X X w2).2 0 0 Y Y).1.toOption.isSome = true := by decide +kernel
  rcases hr : fruitTransform K (fruitFit K rng 0 X X w2).2 0 0 Y Y with ⟨er | B, tr⟩
  · rw [hr] at h'; cases h'
  obtain ⟨As, h1, -, h2⟩ := C86_features (builtin_keepsRows lib) (builtin_countsRight lib) (builtin_keepsN lib) w0_empty hist2
    (f := 0) (by decide +kernel) (by rw [e]; decide) noShared2 (by decide +kernel) (Prod.ext h rfl) rfl hr
  rw [e] at h1
  refine ⟨As, h1, fun i hi => ?_⟩
  show some (B.getD i []) = _
  rw [h2 i hi]
  exact congrArg some (List.map_id _)

end Demo
end Fruits
