import Verif.Props.Builtin1
import Verif.Props.Fruit4
import Verif.Props.Fruit6

/-! # A concrete history with seeds of the library

The theorems about fruits are about all histories.  This file runs one with the seeds of the library over the rational
numbers: it shows that the hypotheses of those theorems are met by a non-trivial pipeline. -/

namespace Fruits
set_option linter.unusedSectionVars false

/-- The world after the calls `ops`. -/
def runOps {R P I W S V : Type} [Field R] [LinearOrder R] [FloorRing R] (K : Sem R P I W S V) (ρ : ℕ → Rng R) :
    List (Op R P I W S) → World R P I W S → World R P I W S
  | [], w => w
  | o :: os, w => runOps K ρ os (step K ρ o w).2

/-- Every call refers to existing objects. -/
def LiveAll {R P I W S V : Type} [Field R] [LinearOrder R] [FloorRing R] (K : Sem R P I W S V) (ρ : ℕ → Rng R) :
    List (Op R P I W S) → World R P I W S → Prop
  | [], _ => True
  | o :: os, w => o.Live w ∧ LiveAll K ρ os (step K ρ o w).2

theorem Hist.append_run {R P I W S V : Type} [Field R] [LinearOrder R] [FloorRing R] {K : Sem R P I W S V} {ρ : ℕ → Rng R}
    {w₀ : World R P I W S} : ∀ (os : List (Op R P I W S)) {ops : List (Op R P I W S)} {w : World R P I W S}, Hist K ρ w₀ ops w →
    LiveAll K ρ os w → Hist K ρ w₀ (ops ++ os) (runOps K ρ os w)
  | [], ops, w, h, _ => by simpa [runOps] using h
  | o :: os, ops, w, h, hl => by
    have := Hist.append_run os (h.snoc o hl.1) hl.2
    simpa [runOps] using this

theorem Hist.run {R P I W S V : Type} [Field R] [LinearOrder R] [FloorRing R] {K : Sem R P I W S V} {ρ : ℕ → Rng R}
    {w₀ : World R P I W S} (os : List (Op R P I W S)) (hl : LiveAll K ρ os w₀) : Hist K ρ w₀ os (runOps K ρ os w₀) := by
  simpa using Hist.append_run os (Hist.nil (K := K) (ρ := ρ) (w₀ := w₀)) hl

namespace Demo

/-- Stand-ins for the numerical functions over the rational numbers. -/
scoped instance demoMath : NpMath ℚ := ⟨id, id, fun a _ => a, id, id⟩

/-- The parameters. -/
def lib : Lib ℚ where
  T := ⟨fun _ => [], fun _ => some (1 / 2)⟩
  expf := fun _ => 1
  pi := 3
  fuel := 3
  setOrder := List.dedup
  setOrder_ok := fun _ => .rfl
  calls := ⟨fun _ => "<f>".toList, fun _ => "<f>".toList, fun _ => "<f>".toList, fun _ => "[[]]".toList⟩

/-- Random draws are the smallest possible ones. -/
def rng : ℕ → Rng ℚ := fun _ => lowRng

/-- Library seeds over the rational numbers. -/
abbrev K := builtin lib
/-- Worlds of these seeds. -/
abbrev DWorld := World ℚ (SafePrep ℚ) (BIss ℚ) (List (IWord ℚ)) (SafeSieve ℚ)
/-- Calls with these seeds. -/
abbrev DOp := Op ℚ (SafePrep ℚ) (BIss ℚ) (List (IWord ℚ)) (SafeSieve ℚ)

/-- `INC(zero_padding=False)`. -/
def incPrep : SafePrep ℚ := ⟨.inc { zeroPadding := false }, trivial⟩
/-- `SimpleWord("[1]")` and `SimpleWord("[1][1]")`. -/
def wordList : List (IWord ℚ) :=
  [.simple ⟨[[1]], 1, "[1]".toList, none⟩, .simple ⟨[[1], [1]], 1, "[1][1]".toList, none⟩]
/-- An ISS in the reals, mode SINGLE. -/
def issSingle : BIss ℚ := .iss ⟨.single, .reals, none⟩
/-- `PPV([0.5])`. -/
def ppvHalf : SafeSieve ℚ := ⟨.ppv ⟨[(1/2, false)], 1, false, none⟩, by intro h; cases h⟩
/-- `END()`. -/
def endSieve : SafeSieve ℚ := ⟨.seg .end_ { q := [-1, 1] }, trivial⟩

/-- Nothing has been created. -/
def w0 : DWorld where
  prep := fun _ => incPrep
  iss := fun _ => (issSingle, 0)
  words := fun _ => []
  sieve := fun _ => endSieve
  slice := fun _ => {}
  fruit := fun _ => {}

theorem w0_empty : w0.Empty := ⟨rfl, rfl, rfl, rfl, rfl, rfl⟩

/-- Two series of one dimension. -/
def X : Data ℚ := [[[1, 2, 4]], [[0, 1, 0]]]

/-- A fruit with one slice (`INC`, an ISS with two words, `PPV` and `END`) is built, fitted, cut and given a second slice that
shares the seeds, and fitted again. -/
def ops : List DOp :=
  [.newPrep incPrep, .newWords wordList, .newIss issSingle 0, .newSieve ppvHalf, .newSieve endSieve, .newFruit "fruit".toList,
    .fruitAdd 0 [.prep 0, .iss 0, .sieve 0, .sieve 1], .fruitFit 0 none X, .cut 0 none, .fruitAdd 0 [.iss 0, .sieve 1],
    .fruitFit 0 none X]

/-- The world after `ops`. -/
def w : DWorld := runOps K rng ops w0

theorem live : LiveAll K rng ops w0 := by
  simp only [LiveAll, ops, Op.Live, List.mem_cons, List.not_mem_nil, or_false, forall_eq_or_imp, forall_eq, Arg.Live, and_true,
    true_and]
  decide +kernel

theorem hist : Hist K rng w0 ops w := Hist.run ops live

/-- The features: six columns for two series. -/
def A : List (List ℚ) := [[2/3, 4, 2/3, 5, 7, 14], [0, 0, 0, -1, 1, 0]]

theorem transform_ok : (fruitTransform K w 2 0 X X).1.toOption = some A := by decide +kernel

theorem transform_eq : fruitTransform K w 2 0 X X = (.ok A, (fruitTransform K w 2 0 X X).2) := by
  have h := transform_ok
  rcases hr : fruitTransform K w 2 0 X X with ⟨e | B, tr⟩
  · rw [hr] at h; simp [Except.toOption] at h
  · rw [hr] at h
    simp only [Except.toOption, Option.some.injEq] at h
    rw [h]

theorem positive : ∀ s ∈ (w.fruit 0).slices, ∀ a ∈ (w.slice s).sieves, 0 ≤ K.sieveN (w.sieve a) := by decide +kernel

/-- The hypotheses of `C73_layout` hold for the history. -/
example : ∃ cols : List Col, columns K w 0 = .ok cols ∧ fruitN K w 0 = .ok (cols.length : ℤ) ∧ A.length = X.length ∧
    ∀ i < X.length, (A.getD i []).length = cols.length ∧
      (A.getD i []).map some = cols.map fun c => (colValue K w X X i c).map K.post :=
  C73_layout (builtin_keepsRows lib) (builtin_countsRight lib) (builtin_keepsN lib) hist w0_empty (by decide +kernel) positive rfl transform_eq

/-- The hypotheses of `C74_chain` are met by two chained ISS with two words each. -/
example : (iterateIss K X [(issSingle, wordList), (issSingle, wordList)] X).2 = none ∧
    (iterateIss K X [(issSingle, wordList), (issSingle, wordList)] X).1.length = 4 := by decide +kernel

/-- The conclusion of `C76_transform_needs_fit` for the history. -/
example : ∀ s ∈ (w.fruit 0).slices, FittedSince K rng w0 s ops :=
  C76_transform_needs_fit hist w0_empty (by decide +kernel) transform_eq

/-- Before the second fit the new slice is not fitted: `transform` raises. -/
example : (sliceTransform K (runOps K rng (ops.take 10) w0) 0 1 X X).1.toOption = none ∧
    (fruitTransform K (runOps K rng (ops.take 10) w0) 0 0 X X).1.toOption = none := by decide +kernel

/-- **C82**, the part that is false: `on_sieve` is documented to get the features of the sieve, but the code passes *rows*
`k:k+n` of the feature matrix.  Here the first sieve (number 0, `PPV`, one feature) computes the column `[[2/3], [0]]`, while
the callback receives the whole first row; the second sieve of the first iterated sum gets the second row. -/
theorem C82_on_sieve_rows :
    ((seenBy 0 (fruitTransform K w 2 0 X X).2).filterMap fun e => match e with | .sieve B => some B | _ => none).take 2 =
      [[[2/3, 0, 0, 0]], [[0, 0, 0, 0]]] ∧
    ((iterateIss K X [(issSingle, wordList)] (prepared K w X X 0)).1[0]?.bind fun it =>
      ((w.slice 0).ext[0]?.bind fun row => row[0]?.bind fun v => (K.sieveTransform v X it).toOption)) = some [[2/3], [0]] := by
  decide +kernel

/-- The first `on_sieve` of `C82_on_sieve_rows` belongs to a successful call after a history. -/
example : ∃ As : List (List (List ℚ)), List.Forall₂ (fun s B => (sliceTransform K w 2 s X X).1 = .ok B) (w.fruit 0).slices As := by
  obtain ⟨As, h, _⟩ := C82_callbacks_partial (builtin_keepsRows lib) (builtin_countsRight lib) (builtin_keepsN lib) hist w0_empty
    (by decide +kernel) positive rfl transform_eq
  exact ⟨As, h⟩

/-- A deep copy of the fruit succeeds, and fitting the copy is a call that `C79_fruit_deepcopy_partial` is about. -/
example : (fruitDeepcopy K 0 w).1 = .ok 1 ∧ (fruitTransform K (step K rng (.fruitFit 1 none X) (fruitDeepcopy K 0 w).2).2 0 1 X X).1.toOption
    = some A := by decide +kernel

/-- **C79**, the part that is false: the copied ISS objects share the list of words with the original, so changing the words of
the deep copy in place changes what the original returns. -/
theorem C79_shared_words :
    (fruitDeepcopy K 0 w).1 = .ok 1 ∧
    (((fruitDeepcopy K 0 w).2.iss (((fruitDeepcopy K 0 w).2.slice (((fruitDeepcopy K 0 w).2.fruit 1).slices.getD 0 0)).iss.getD 0 0)).2 = 0) ∧
    (fruitTransform K (fruitDeepcopy K 0 w).2 0 0 X X).1.toOption = some A ∧
    (fruitTransform K (step K rng (.editWords 0 [wordList.getD 0 (.general ⟨[], none⟩), wordList.getD 0 (.general ⟨[], none⟩)])
      (fruitDeepcopy K 0 w).2).2 0 0 X X).1.toOption ≠ some A := by
  decide +kernel

/-- The slice copy of the demo (`C80_slice_copy_partial`). -/
example : (sliceCopy 0 w).1 = .ok 2 ∧ ((sliceCopy 0 w).2.slice 2).sieves = [0, 1] := by decide +kernel

/-- `C80_copy_drops_sample` for a slice with `fit_sample_size = 0.5`. -/
example : ((step K rng (.setSample 0 (.float (1/2))) w).2.slice 0).sample ≠ .int 1 := by
  intro h; simp [step, sliceSetSample, World.setSlice] at h

/-- `clear()` of a fitted slice (`C81_clear_resets`). -/
example : ((w.slice 0).fitted = true ∧ (w.slice 0).sieves = [0, 1]) ∧
    (((step K rng (.clear 0) w).2.slice 0).fitted = false ∧ ((step K rng (.clear 0) w).2.slice 0).sieves = []) := by decide +kernel

/-- The current slice of the demo (`C87_current_slice_valid`, `C87_copycut`, `C87_switch`). -/
example : currentSlice w 0 = .ok 1 ∧ (step K rng (.copycut 0) w).1 = .ok () ∧
    currentSlice (step K rng (.copycut 0) w).2 0 = .ok 2 ∧
    currentSlice (step K rng (.switch 0 0) w).2 0 = .ok 0 ∧ (step K rng (.switch 0 2) w).1 = .error .indexError := by decide +kernel

end Demo
end Fruits
