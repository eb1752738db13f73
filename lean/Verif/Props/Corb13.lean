import Verif.Props.Corb12
import Verif.Props.Demo3

/-! # C136-C139 for a concrete fruit -/

namespace Fruits.Demo
set_option linter.unusedSectionVars false

/-- A second fruit is built that shares an ISS and a sieve with the first. -/
def ops13 : List DOp := ops ++ [.newFruit "b".toList, .fruitAdd 1 [.iss 0, .sieve 1]]

/-- The world after `ops13`. -/
def w13 : DWorld := runOps K rng ops13 w0

theorem hist13 : Hist K rng w0 ops13 w13 := by
  refine Hist.run _ ?_
  simp only [ops13, ops, List.cons_append, List.nil_append, LiveAll, Op.Live, List.mem_cons, List.not_mem_nil, or_false, forall_eq_or_imp, forall_eq, Arg.Live,
    and_true, true_and]
  decide +kernel

/-- The score of this classifier is the sum of the test features of the first series. -/
def clf13 : Classifier ℚ ℚ := fun _ _ G _ => .ok (G.getD 0 []).sum

/-- Other series. -/
def X13 : Data ℚ := [[[5, 2, 4]], [[0, 1, 7]]]

/-- Two runs of the first fruit on these data succeed. -/
example : ∃ as w', fruitifyRuns K rng clf13 0 X [1, 2] X13 [1, 2] 2 w13 = (.ok as, w') ∧ as.length = 2 ∧
    ∀ a ∈ as, ∃ r, (fruitifyOnce K (fun j => rng (r + (j - w13.rnd))) clf13 0 X [1, 2] X13 [1, 2] w13).1 = .ok a := by
  have h : (fruitifyRuns K rng clf13 0 X [1, 2] X13 [1, 2] 2 w13).1 = .ok [43, 43] := by decide +kernel
  have h' : fruitifyRuns K rng clf13 0 X [1, 2] X13 [1, 2] 2 w13 = (.ok [43, 43], (fruitifyRuns K rng clf13 0 X [1, 2] X13 [1, 2] 2 w13).2) := Prod.ext h rfl
  exact ⟨_, _, h', C136_runs (builtin_countsRight lib) (builtin_keepsN lib) (builtin_refits lib) w0_empty hist13 (by decide +kernel) clf13 X X13 [1, 2] [1, 2] h'⟩

/-- `C136_one_run` for these data: seven runs return what one run returns. -/
example (v : Fl ℚ) : (fruitify K rng clf13 7 0 X [1, 2] X13 [1, 2] w13).1 = .ok v ↔ (fruitify K rng clf13 1 0 X [1, 2] X13 [1, 2] w13).1 = .ok v :=
  C136_one_run (builtin_countsRight lib) (builtin_keepsN lib) (builtin_refits lib) w0_empty hist13 (by decide +kernel) (fun _ _ => rfl) clf13 X X13 [1, 2] [1, 2] 6 v

/-- This splitter uses the same series for training and testing. -/
def split13 : Splitter ℚ := fun _ _ X y => .ok (X, X13, y, y)

/-- The two fruits; for the second one a copy of the first is returned. -/
def choices13 : List Choice := [⟨0, 0⟩, ⟨1, 0⟩]

/-- The outcome of `choose`. -/
def chosen : Except Err ℕ × DWorld := chooseFruit K rng clf13 2 2 (1 / 5) split13 choices13 X [1, 1] w13

theorem acc13 (vs : ℚ) : (accuracies K rng clf13 2 2 split13 vs X [1, 1] choices13 0 w13).1 = .ok [.finite 43, .finite 49] := by
  change (accuracies K rng clf13 2 2 split13 0 X [1, 1] choices13 0 w13).1 = _
  decide +kernel

theorem chosen_eq : chosen.1 = .ok 2 := by
  have h : chosen = fruitDeepcopy K 0 (accuracies K rng clf13 2 2 split13 (validationSize (1 / 5) [1, 1] 2) X [1, 1] choices13 0 w13).2 := by
    rw [chosen, chooseFruit, if_neg (by rw [classCounts_one]; decide)]
    have ha := acc13 (validationSize (1 / 5) [1, 1] 2)
    rcases hm : accuracies K rng clf13 2 2 split13 (validationSize (1 / 5) [1, 1] 2) X [1, 1] choices13 0 w13 with ⟨e | as, u⟩
    · rw [hm] at ha; simp at ha
    · rw [hm] at ha
      simp only [Except.ok.injEq] at ha
      subst ha
      have e : accuracies K rng clf13 2 2 split13 (validationSize (1 / 5) [1, 1] X.length) X [1, 1] choices13 0 w13 = _ := hm
      rw [e]
      have : npArgmax [Fl.finite (43 : ℚ), .finite 49] = .ok 1 := by decide +kernel
      simp only [this, choices13, List.getElem?_cons_succ, List.getElem?_cons_zero]
  rw [h]
  change (fruitDeepcopy K 0 (accuracies K rng clf13 2 2 split13 0 X [1, 1] choices13 0 w13).2).1 = _
  decide +kernel

/-- The hypotheses of `C137_choose` hold: the second choice wins. -/
example : ∃ g w', chooseFruit K rng clf13 2 2 (1 / 5) split13 choices13 X [1, 1] w13 = (.ok g, w') ∧ ∃ (k : ℕ) (ch : Choice) (w₁ : DWorld),
    choices13[k]? = some ch ∧ OnlyFits K rng w13 w₁ ∧ DeepFruitOf K w₁ ch.final w' g := by
  have h : chooseFruit K rng clf13 2 2 (1 / 5) split13 choices13 X [1, 1] w13 = (.ok 2, chosen.2) := Prod.ext chosen_eq rfl
  obtain ⟨ms, k, ch, m, w₁, -, -, h3, -, -, -, h7, -, h9⟩ := C137_choose (builtin_countsRight lib) (builtin_keepsN lib) (builtin_refits lib) w0_empty hist13 clf13
    (runs := 2) (nSplits := 2) (by decide) (by decide) (1 / 5) split13 (choices := choices13)
    (by
      have hn : w13.nFruit = 2 := by decide +kernel
      rw [hn]
      intro ch hc
      simp only [choices13, List.mem_cons, List.not_mem_nil, or_false] at hc
      rcases hc with rfl | rfl <;> decide) X [1, 1] (by decide) h
  exact ⟨_, _, h, k, ch, w₁, h3, h7, h9⟩

/-- A class with one sample: the hypothesis of `C137_single`. -/
example : chooseFruit K rng clf13 2 2 (1 / 5) split13 choices13 X [1, 2] w13 = fruitDeepcopy K 0 w13 :=
  C137_single K rng clf13 2 2 (1 / 5) split13 ⟨0, 0⟩ [⟨1, 0⟩] X (by decide) w13

/-- Training and test series with a NaN. -/
def set13 : Loaded ℚ := ⟨[[[.finite 1, .finite 2, .finite 4]], [[.finite 0, .nan, .finite 0]]], [1, 2], [[[.finite 5, .nan, .finite 4]], [[.finite 0, .finite 1, .finite 7]]], [1, 2]⟩

/-- The hypotheses of `C139_alone` hold for two datasets, and the third, which could not be loaded, leaves the two rows in the file. -/
example : (∃ T, (fruitifyAll K rng 1000 clf13 2 (.fruit 0) [("a".toList, .ok set13), ("b".toList, .ok set13)] [] w13).1 = .ok T ∧
    ∀ t ∈ T, ∃ q, t.2 = .finite q) ∧
    (fruitifyAll K rng 1000 clf13 2 (.fruit 0) [("a".toList, .ok set13), ("b".toList, .ok set13), ("c".toList, .error .notFound)] [] w13).2.1.length = 2 := by
  have h2 : (fruitifyAll K rng 1000 clf13 2 (.fruit 0) [("a".toList, .ok set13), ("b".toList, .ok set13)] [] w13).2.1.length = 2 := by decide +kernel
  refine ⟨?_, by decide +kernel⟩
  rcases hT : (fruitifyAll K rng 1000 clf13 2 (.fruit 0) [("a".toList, .ok set13), ("b".toList, .ok set13)] [] w13).1 with e | T
  · exfalso
    have : (fruitifyAll K rng 1000 clf13 2 (.fruit 0) [("a".toList, .ok set13), ("b".toList, .ok set13)] [] w13).1.toOption ≠ none := by decide +kernel
    rw [hT] at this; exact this rfl
  · refine ⟨T, rfl, fun t ht => ?_⟩
    have := C139_alone (builtin_countsRight lib) (builtin_keepsN lib) (builtin_refits lib) w0_empty hist13 (by decide +kernel) 1000 clf13 (by decide) _ hT
    exact forall₂_right this (Q := fun t => ∃ q, t.2 = .finite q) (by rintro _ _ ⟨D, q, _, rfl, _⟩; exact ⟨q, rfl⟩) t ht

end Fruits.Demo
