import Verif.Props.Units3
import Verif.Props.Demo

/-! # C166: changing the unit of measurement, part 4: fruits of the library's seeds -/

namespace Fruits
set_option linter.unusedSectionVars false

variable {R : Type} [Field R] [LinearOrder R] [IsStrictOrderedRing R] [FloorRing R]

/-- The preparateurs that do not use raw sums of increments of the input: all but `SPE(step_transform=…)`. -/
def Prep.UnitCache : Prep R → Prop
  | .spe p => p.step = none
  | _ => True

/-- The ISS objects whose weighting does not depend on the unit of the raw data: no `L1`/`L2` of the raw data that is divided by
`(…) + 1e-5` (`relative`) or changed by a function. -/
def BIss.UnitCache : BIss R → Prop
  | .iss o => ∀ k, o.weighting = some k → match k.2 with
    | .norm _ onPrepared relative f _ => onPrepared = true ∨ (relative = false ∧ f = none)
    | _ => True
  | .cos _ => True

theorem Prep.transformC_unit [NpMath R] (T : FloatText R) {c : R} (hc : c ≠ 0) (C : Data R) (p : Prep R) (hp : p.UnitCache) (X : Data R) :
    p.transformC T (scaleData c C) X = p.transformC T C X := by
  cases p with
  | win p => simp only [Prep.transformC, WIN.transform, coqs_sc T hc]
  | spe p =>
    change p.step = none at hp
    simp only [Prep.transformC, SPE.transform, hp]
  | new p => cases p <;> simp only [Prep.transformC]
  | _ => simp only [Prep.transformC]

theorem rescale_sc {c : R} (hc : 0 < c) (scale : R) (rows : List (List R)) : rescale scale (scArr c rows) = rescale scale rows := by
  unfold rescale
  rw [newAxis_sc, NRM.transform_sc hc]

theorem weightingFor_unit (T : FloatText R) {c : R} (hc : c ≠ 0) (C X : Data R) (o : ISSObj R) (hk : (BIss.iss o).UnitCache) (word : IWord R) :
    weightingFor T (scaleData c C) X o word = weightingFor T C X o word := by
  cases word with
  | general w => rfl
  | simple w =>
    simp only [weightingFor]
    rcases hw : o.weighting with _ | ⟨b, k⟩
    · rfl
    · have := hk _ hw
      simp only [lookupFor]
      cases k with
      | norm nm onP rel f sc =>
        have hl : (WeightingKind.norm nm onP rel f sc).lookup T (scaleData c C) X = (WeightingKind.norm nm onP rel f sc).lookup T C X := by
          simp only [WeightingKind.lookup, normLookup]
          rcases this with h | ⟨h1, h2⟩
          · subst h; rfl
          · subst h1; subst h2
            cases onP with
            | true => rfl
            | false =>
              simp only [Bool.false_eq_true, if_false, issSums_sc, applyTransform]
              rcases issSums T C nm.str with e | rows
              · rfl
              · simp only [Except.map, ok_bind]
                exact rescale_sc (Norm.factor_pos nm hc) sc rows
        rw [hl]
      | _ => rfl

theorem scQ_one (q : QVal R) : scQ 1 q = q := by
  have h : (fun x : R => 1 * x) = id := by funext x; simp
  unfold scQ
  rw [h]
  cases q with
  | none => rfl
  | some q => cases q <;> rfl

theorem Sieve.rescale_one : ∀ s : Sieve R, s.rescale 1 = s
  | .seg k p => by
    have : (scQ 1 : QVal R → QVal R) = id := by funext q; exact scQ_one q
    simp only [Sieve.rescale, Seg.rescale, this, List.map_id_fun, Option.map_id_fun, id]
  | .inc k i p => by
    have : (scQ 1 : QVal R → QVal R) = id := by funext q; exact scQ_one q
    simp only [Sieve.rescale, Seg.rescale, this, List.map_id_fun, Option.map_id_fun, id]
  | .ppv p => by
    have : (scRow 1 : List R → List R) = id := by funext q; exact scRow_one q
    simp only [Sieve.rescale, PPV.rescale, this, Option.map_id_fun, id]
  | .cpv p => by
    have : (scRow 1 : List R → List R) = id := by funext q; exact scRow_one q
    simp only [Sieve.rescale, PPV.rescale, this, Option.map_id_fun, id]
  | .wrapInc s d k => by simp only [Sieve.rescale, Sieve.rescale_one s]
  | .wrapInt s => by simp only [Sieve.rescale, Sieve.rescale_one s]

theorem Sieve.transformC_unit (T : FloatText R) {c : R} (hc : c ≠ 0) (C : Data R) (s : Sieve R) (X : List (List R)) :
    s.transformC T (scaleData c C) X = s.transformC T C X := by
  have := C166_sieve_transform T one_pos s hc C X
  rw [Sieve.rescale_one, scArr_one, one_pow] at this
  rw [this]
  have h1 : (scArr 1 : List (List R) → List (List R)) = id := by funext Y; simp
  rw [h1]
  cases s.transformC T C X <;> rfl

theorem builtin_sameCache [NpMath R] (L : Lib R) {c : R} (hc : c ≠ 0) (C : Data R) :
    (builtin L).SameCache C (scaleData c C) (fun p => p.1.UnitCache) BIss.UnitCache where
  prepFit := fun _ _ _ => rfl
  prepTransform := fun p X hp => Prep.transformC_unit L.T hc C p.1 hp X
  issFit := fun _ _ _ _ => rfl
  issKeep := fun g i ws X i' hq h => by
    change BIss.fit g i ws X = .ok i' at h
    cases i with
    | iss o => cases h; exact hq
    | cos c =>
      simp only [BIss.fit] at h
      rcases hs : simpleWords ws with e | sw
      · rw [hs] at h; cases h
      rw [hs, ok_bind] at h
      rcases hc : c.fit g sw X with e | c'
      · rw [hc] at h; cases h
      rw [hc, ok_bind] at h
      cases h
      trivial
  issGen := fun i ws X hq => by
    change BIss.gen L i ws (scaleData c C) X = BIss.gen L i ws C X
    cases i with
    | cos c => rfl
    | iss o =>
      simp only [BIss.gen]
      congr 1
      refine yieldWords_congr _ fun i => ?_
      simp only [ISSObj.wordSums]
      cases ws[i]? with
      | none => rfl
      | some word => simp only [weightingFor_unit L.T hc C X o hq word]
  sieveFit := fun _ _ _ => rfl
  sieveTransform := fun v X => Sieve.transformC_unit L.T hc C v.1 X

theorem Prep.rescale_keepsSeries (c : R) : ∀ p : Prep R, p.KeepsSeries → (p.rescale c).KeepsSeries
  | .dim p _, h => Prep.rescale_keepsSeries c p h
  | .new (some p), h => Prep.rescale_keepsSeries c p h
  | .new none, _ => trivial
  | .func _, h => h
  | .inc _, _ | .nrm _, _ | .lag, _ | .win _, _ | .spe _, _ | .rpe _, _ | .cts _, _ | .std _, _ | .mav _, _ | .ffn _, _
  | .dot _, _ | .rin _, _ | .rdw _, _ | .jld _, _ | .qtc _, _ | .dil _, _ | .pdd _, _ => trivial

/-- `Prep.rescale` for a `SafePrep`. -/
def safeRescale (c : R) (p : SafePrep R) : SafePrep R := ⟨p.1.rescale c, p.1.rescale_keepsSeries c p.2⟩

theorem Prep.refit_rescale [NpMath R] (g : Rng R) (fuel : ℕ) (c : R) : ∀ (p : Prep R) (X : Data R), (p.rescale c).fit g fuel X = p.fit g fuel X
  | .std p, X => by
    simp only [Prep.rescale, Prep.fit]
    unfold STD.fit STD.rescale
    cases h : p.separately <;> simp [h]
  | .qtc p, X => by simp only [Prep.rescale, Prep.fit, QTC.fit, QTC.rescale]
  | .dim p dims, X => by
    simp only [Prep.rescale, Prep.fit]
    cases selectDims dims X with
    | error e => rfl
    | ok sub => simp only [ok_bind, Prep.refit_rescale g fuel c p sub]
  | .new (some p), X => by simp only [Prep.rescale, Prep.fit, Prep.refit_rescale g fuel c p X]
  | .new none, _ => rfl
  | .func _, _ => rfl
  | .inc _, _ | .nrm _, _ | .lag, _ | .win _, _ | .spe _, _ | .rpe _, _ | .cts _, _ | .mav _, _ | .ffn _, _
  | .dot _, _ | .rin _, _ | .rdw _, _ | .jld _, _ | .dil _, _ | .pdd _, _ => rfl

theorem JLD.fit_bias [NpMath R] {g : Rng R} {p q : JLD R} {X : Data R} (h : p.fit g X = .ok q) (hb : p.bias = false) :
    q.bias = false ∧ ∀ st, q.fitted = some st → ∀ k, st.bias.getD k 0 = 0 := by
  have hz : ∀ (l : List ℕ) (k : ℕ), (l.map fun _ => (0 : R)).getD k 0 = 0 := by
    intro l k
    rw [List.getD_eq_getElem?_getD, List.getElem?_map]
    cases l[k]? <;> rfl
  unfold JLD.fit at h
  simp only [hb, Bool.false_eq_true, if_false] at h
  split at h
  · split at h
    · cases h
    split at h
    · cases h
    split at h
    · cases h
    cases h
    refine ⟨rfl, fun st hst k => ?_⟩
    cases hst
    exact hz _ k
  · split at h
    · cases h
    cases h
    refine ⟨rfl, fun st hst k => ?_⟩
    cases hst
    exact hz _ k

/-- Fitting keeps the classes. -/
theorem Prep.fit_unitClass [NpMath R] (g : Rng R) (fuel : ℕ) : ∀ (p q : Prep R) (X : Data R), p.fit g fuel X = .ok (some q) →
    (p.KeepsUnit → q.KeepsUnit) ∧ (p.RemovesUnit → q.RemovesUnit) ∧ (p.UnitCache → q.UnitCache)
  | .dim p dims, q, X, h => by
    simp only [Prep.fit] at h
    rcases hs : selectDims dims X with e | sub
    · rw [hs] at h; cases h
    · rw [hs, ok_bind] at h
      rcases hr : p.fit g fuel sub with e | r
      · rw [hr] at h; cases h
      · rw [hr, ok_bind] at h
        cases r with
        | none => cases h
        | some p' => cases h; exact ⟨(Prep.fit_unitClass g fuel p p' sub hr).1, id, id⟩
  | .new (some p), q, X, h => by
    simp only [Prep.fit] at h
    rcases hr : p.fit g fuel X with e | r
    · rw [hr] at h; cases h
    · rw [hr, ok_bind] at h
      cases r with
      | none => cases h
      | some p' => cases h; exact ⟨(Prep.fit_unitClass g fuel p p' X hr).1, id, id⟩
  | .new none, q, X, h => by cases h; exact ⟨id, id, id⟩
  | .func f, q, X, h => by cases h; exact ⟨id, id, id⟩
  | .inc _, q, X, h => by cases h; exact ⟨id, id, id⟩
  | .nrm _, q, X, h => by cases h; exact ⟨id, id, id⟩
  | .lag, q, X, h => by cases h; exact ⟨id, id, id⟩
  | .win _, q, X, h => by cases h; exact ⟨id, id, id⟩
  | .spe _, q, X, h => by cases h; exact ⟨id, id, id⟩
  | .rpe _, q, X, h => by cases h; exact ⟨id, id, id⟩
  | .cts _, q, X, h => by cases h; exact ⟨id, id, id⟩
  | .std p, q, X, h => by
    cases h
    have h1 : (p.fit X).var = p.var := by unfold STD.fit; cases p.separately <;> rfl
    have h2 : (p.fit X).eps = p.eps := by unfold STD.fit; cases p.separately <;> rfl
    simp only [Prep.KeepsUnit, Prep.RemovesUnit, h1, h2, Prep.UnitCache]
    exact ⟨id, id, id⟩
  | .mav _, q, X, h => by cases h; exact ⟨id, id, id⟩
  | .ffn _, q, X, h => by cases h; exact ⟨id, id, id⟩
  | .dot _, q, X, h => by cases h; exact ⟨id, id, id⟩
  | .rin p, q, X, h => by
    simp only [Prep.fit] at h
    rcases hr : p.fit g fuel X with e | r
    · rw [hr] at h; cases h
    · rw [hr, ok_bind] at h
      cases r with
      | none => cases h
      | some p' => cases h; exact ⟨id, id, id⟩
  | .rdw p, q, X, h => by
    simp only [Prep.fit] at h
    rcases hr : p.fit g X with e | r
    · rw [hr] at h; cases h
    · rw [hr, ok_bind] at h; cases h; exact ⟨id, id, id⟩
  | .jld p, q, X, h => by
    simp only [Prep.fit] at h
    rcases hr : p.fit g X with e | r
    · rw [hr] at h; cases h
    · rw [hr, ok_bind] at h; cases h; exact ⟨fun hk => JLD.fit_bias hr hk.1, id, id⟩
  | .qtc p, q, X, h => by
    simp only [Prep.fit] at h
    rcases hr : p.fit X with e | r
    · rw [hr] at h; cases h
    · rw [hr, ok_bind] at h; cases h
      have hb : r.bound = p.bound := by
        unfold QTC.fit at hr
        rcases hq : quantile (entries X) p.q with e | v
        · rw [hq] at hr; cases hr
        · rw [hq] at hr; cases hr; rfl
      simp only [Prep.KeepsUnit, hb]
      exact ⟨id, id, id⟩
  | .dil p, q, X, h => by
    simp only [Prep.fit] at h
    rcases hr : p.fit g X with e | r
    · rw [hr] at h; cases h
    · rw [hr, ok_bind] at h; cases h; exact ⟨id, id, id⟩
  | .pdd p, q, X, h => by
    simp only [Prep.fit] at h
    rcases hr : p.fit X with e | r
    · rw [hr] at h; cases h
    · rw [hr, ok_bind] at h; cases h; exact ⟨id, id, id⟩

theorem builtin_converts [NpMath R] [SqrtLaw R] (L : Lib R) {c : R} (hc : 0 < c) (C : Data R) :
    (builtin L).Converts C (scaleData c C) (scaleData c) (safeRescale c) (fun p => p.1.KeepsUnit) (fun p => p.1.RemovesUnit) (fun p => p.1.UnitCache) where
  fit := fun g p X hp => by
    change L.safeFit g p (scaleData c X) = (L.safeFit g p X).map (safeRescale c)
    apply map_val_injective
    rw [Lib.safeFit_val]
    have h1 : ((L.safeFit g p X).map (safeRescale c)).map Subtype.val = (L.prepFit g p.1 X).map (Prep.rescale c) := by
      rw [← Lib.safeFit_val]
      cases L.safeFit g p X <;> rfl
    rw [h1]
    unfold Lib.prepFit
    rw [C166_prep_fit g L.fuel hc p.1 hp X]
    rcases p.1.fit g L.fuel X with e | r
    · rfl
    · cases r <;> rfl
  refit := fun g p _ X => by
    change L.safeFit g (safeRescale c p) X = L.safeFit g p X
    apply map_val_injective
    rw [Lib.safeFit_val, Lib.safeFit_val]
    unfold Lib.prepFit safeRescale
    simp only [Prep.refit_rescale]
  fitKeeps := fun g p q _ X h => by
    have h1 : L.prepFit g p.1 X = .ok q.1 := by
      have := Lib.safeFit_val L g p X
      rw [← this, show L.safeFit g p X = .ok q from h]; rfl
    unfold Lib.prepFit at h1
    rcases hr : p.1.fit g L.fuel X with e | r
    · rw [hr] at h1; cases h1
    rw [hr] at h1
    cases r with
    | none => cases h1
    | some p' =>
      simp only [Except.ok.injEq] at h1
      rw [h1] at hr
      exact Prep.fit_unitClass g L.fuel p.1 q.1 X hr
  keeps := fun p X hp => C166_prep_keeps L.T hc p.1 hp hc.ne' C X
  removes := fun p X hp => C166_prep_removes L.T hc p.1 hp C (scaleData c C) X

theorem selectSample_sc (c : R) (g : Rng R) (k : IntOrFloat R) (X : Data R) : selectSample g k (scaleData c X) = (selectSample g k X).map (scaleData c) := by
  have hch : ∀ s, chooseSample g s (scaleData c X) = (chooseSample g s X).map (scaleData c) := by
    intro s
    unfold chooseSample
    rw [scaleData_length]
    by_cases h : X.length < s
    · rw [if_pos h, if_pos h]; rfl
    · rw [if_neg h, if_neg h]
      simp only [Except.map, Except.ok.injEq]
      have : scaleData c (List.map (fun i => List.getD X i []) (g.choice 0 X.length s)) =
          (g.choice 0 X.length s).map fun i => scArr c (X.getD i []) := by rw [scaleData_eq, List.map_map]; rfl
      rw [this]
      exact List.map_congr_left fun i _ => scaleData_getD c X i
  unfold selectSample
  split
  · rw [scaleData_length]
    by_cases h : X.length = 0
    · rw [if_pos h, if_pos h]; rfl
    · rw [if_neg h, if_neg h]
      simp only [Except.map, Except.ok.injEq]
      exact slc_map _ X _ _
  · rw [scaleData_length]; exact hch _

/-- A slice of the library's seeds in which the unit of the data is removed: see `UnitSlice`. -/
abbrev RemovesUnitSlice (A : ℕ → Prop) (w : World R (SafePrep R) (BIss R) (List (IWord R)) (SafeSieve R)) (s : ℕ) : Prop :=
  UnitSlice (fun p : SafePrep R => p.1.KeepsUnit) (fun p => p.1.RemovesUnit) (fun p => p.1.UnitCache) BIss.UnitCache A w s

/-- **C166 (fruits).** If every slice of a fruit removes the unit, then fitting the fruit on training data and transforming data gives exactly the same
features as fitting it on the training data and transforming the data in another unit (with the same random numbers), and the fit raises the same
exception if it raises one. -/
theorem C166_fruit [NpMath R] [SqrtLaw R] (L : Lib R) (ρ : ℕ → Rng R) {c : R} (hc : 0 < c) {A : ℕ → Prop}
    {w : World R (SafePrep R) (BIss R) (List (IWord R)) (SafeSieve R)} {f : ℕ} (hs : ∀ s ∈ (w.fruit f).slices, RemovesUnitSlice A w s) (Xtrain : Data R) :
    (fruitFit (builtin L) ρ f (scaleData c Xtrain) (scaleData c Xtrain) w).1 = (fruitFit (builtin L) ρ f Xtrain Xtrain w).1 ∧
    ((fruitFit (builtin L) ρ f Xtrain Xtrain w).1 = .ok () → ∀ X n,
      (fruitTransform (builtin L) (fruitFit (builtin L) ρ f (scaleData c Xtrain) (scaleData c Xtrain) w).2 n f (scaleData c X) (scaleData c X)).1 =
        (fruitTransform (builtin L) (fruitFit (builtin L) ρ f Xtrain Xtrain w).2 n f X X).1) := by
  have h := fun X => fruit_unit (fun X => scaleData_length c X) (fun g k X => selectSample_sc c g k X) ρ (builtin_sameCache L hc.ne' Xtrain)
    (builtin_converts L hc Xtrain) (builtin_sameCache L hc.ne' X) (builtin_converts L hc X) hs Xtrain
  exact ⟨(h Xtrain).1, fun hok X n => (h X).2 hok X n⟩

/-! ### The hypotheses are met -/

/-- A fruit with two slices: `INC`, `NRM`, `MAV(2)` with an ISS weighted by `L2` of the raw data and `CPV([0.5])`, `MAX`; and `NRM` (the same object)
with the same ISS and `END`. -/
def unitDemo (R : Type) [Field R] [LinearOrder R] [FloorRing R] : World R (SafePrep R) (BIss R) (List (IWord R)) (SafeSieve R) where
  prep := fun a => if a = 0 then ⟨.inc {}, trivial⟩ else if a = 1 then ⟨.nrm false, trivial⟩ else ⟨.mav { given := .int 2 }, trivial⟩
  iss := fun _ => (.iss ⟨.single, .reals, some (false, .norm .L2 false false none 2)⟩, 0)
  words := fun _ => [.simple ⟨[[1]], 1, "[1]".toList, none⟩, .simple ⟨[[1], [1]], 1, "[1][1]".toList, none⟩]
  sieve := fun a => if a = 0 then ⟨.cpv ⟨[(1/2, false)], 1, false, none⟩, by intro h; cases h⟩
    else if a = 1 then ⟨.seg .max { q := [0, 1] }, trivial⟩ else ⟨.seg .end_ { q := [0, 1] }, trivial⟩
  slice := fun s => if s = 0 then { preps := [0, 1, 2], iss := [0], sieves := [0, 1] } else { preps := [1], iss := [0], sieves := [2] }
  fruit := fun _ => { slices := [0, 1] }

theorem unitDemo_removes (R : Type) [Field R] [LinearOrder R] [IsStrictOrderedRing R] [FloorRing R] :
    ∀ s ∈ ((unitDemo R).fruit 0).slices, RemovesUnitSlice (· ≤ 1) (unitDemo R) s := by
  have hi : ∀ a, BIss.UnitCache ((unitDemo R).iss a).1 := by
    intro a k hk
    cases hk
    exact Or.inr ⟨rfl, rfl⟩
  intro s hs
  have hs : s = 0 ∨ s = 1 := by simpa [unitDemo] using hs
  rcases hs with rfl | rfl
  · refine ⟨⟨[0], 1, [2], rfl, ?_, ⟨trivial, le_refl _⟩, ?_⟩, fun a _ => hi a⟩
    · intro a ha
      obtain rfl : a = 0 := by simpa using ha
      exact ⟨trivial, Nat.zero_le _⟩
    · intro a ha
      obtain rfl : a = 2 := by simpa using ha
      exact ⟨trivial, by decide⟩
  · exact ⟨⟨[], 1, [], rfl, by simp, ⟨trivial, le_refl _⟩, by simp⟩, fun a _ => hi a⟩

/-- Over the real numbers. -/
example (L : Lib ℝ) (ρ : ℕ → Rng ℝ) (Xtrain : Data ℝ) :
    (fruitFit (builtin L) ρ 0 (scaleData 1000 Xtrain) (scaleData 1000 Xtrain) (unitDemo ℝ)).1 =
      (fruitFit (builtin L) ρ 0 Xtrain Xtrain (unitDemo ℝ)).1 :=
  (C166_fruit L ρ (by norm_num) (unitDemo_removes ℝ) Xtrain).1

/-- Seeds that meet the conditions: `NEW(QTC(0.5))`, `STD(std_eps=0)`, `CPV([0.5, 0])` with a constant 0; and two that do not. -/
example : (Prep.new (some (.qtc { q := 1/2, lower := true })) : Prep ℚ).KeepsUnit ∧ (Prep.std { eps := 0 } : Prep ℚ).RemovesUnit ∧
    (Sieve.cpv ⟨[(1/2, false), (0, true)], 1, false, none⟩ : Sieve ℚ).UnitFree ∧ ¬ (Prep.std { eps := 1/100000 } : Prep ℚ).RemovesUnit ∧
    ¬ (Sieve.ppv ⟨[(3, true)], 1, false, none⟩ : Sieve ℚ).UnitFree := by
  simp [Prep.KeepsUnit, Prep.RemovesUnit, Sieve.UnitFree, PPV.UnitFree]

/-- `PPV` learns its threshold in the new unit and returns the same features. -/
example : ((Sieve.ppv ⟨[(1/2, false)], 1, false, none⟩ : Sieve ℚ).fit lowRng (scArr 3 [[1, 5, 2, 4]])).toOption.map (fun s => (s.transformC Demo.lib.T [] (scArr 3 [[1, 5, 2, 4]])).toOption)
    = some (some [[1/2]]) ∧
    ((Sieve.ppv ⟨[(1/2, false)], 1, false, none⟩ : Sieve ℚ).fit lowRng [[1, 5, 2, 4]]).toOption.map (fun s => (s.transformC Demo.lib.T [] [[1, 5, 2, 4]]).toOption)
    = some (some [[1/2]]) := by
  decide +kernel

open Demo in
/-- Over the rational numbers: the fit succeeds and the six features are not trivial. -/
example : (fruitFit K rng 0 Demo.X Demo.X (unitDemo ℚ)).1.toOption = some () ∧
    (fruitTransform K (fruitFit K rng 0 Demo.X Demo.X (unitDemo ℚ)).2 0 0 Demo.X Demo.X).1.toOption =
      some [[1/2, 1, 0, 3/16, 4/3, 1/3], [1/2, 5/4, 0, 3/8, 1, 0]] ∧
    (fruitTransform K (fruitFit K rng 0 (scaleData 3 Demo.X) (scaleData 3 Demo.X) (unitDemo ℚ)).2 0 0 (scaleData 3 Demo.X) (scaleData 3 Demo.X)).1.toOption =
      some [[1/2, 1, 0, 3/16, 4/3, 1/3], [1/2, 5/4, 0, 3/8, 1, 0]] := by
  decide +kernel

/-! ### Standardising with the default `std_eps` does depend on the unit -/

/-- **C166 (counterexample).** `STD()` with its default `std_eps=1e-5` (`transform.py:117`) does not remove the unit: the standardised series of
`[0, 1]` and of the same series in another unit, `[0, 1000]`, differ. -/
theorem C166_std_eps [NpMath R] [SqrtLaw R] (T : FloatText R) (C C' : Data R) :
    (Prep.std { eps := 1 / 100000 } : Prep R).transformC T C' (scaleData 1000 [[[0, 1]]]) ≠
      (Prep.std { eps := 1 / 100000 } : Prep R).transformC T C [[[0, 1]]] := by
  have hs : ∀ v : R, 0 ≤ v → NpMath.sqrt (v * v) = v := by
    intro v hv
    have h1 := SqrtLaw.sq (v * v) (mul_self_nonneg v)
    have h2 := SqrtLaw.nonneg (v * v)
    nlinarith [mul_self_inj_of_nonneg h2 hv |>.1 h1]
  have e1 : npStd ([0, 1] : List R) = 1 / 2 := by
    unfold npStd
    rw [show variance ([0, 1] : List R) = (1 / 2) * (1 / 2) by simp [variance, mean]; norm_num]
    exact hs _ (by norm_num)
  have e2 : npStd ([0, 1000] : List R) = 500 := by
    unfold npStd
    rw [show variance ([0, 1000] : List R) = 500 * 500 by simp [variance, mean]; norm_num]
    exact hs _ (by norm_num)
  have e3 : mean ([0, 1] : List R) = 1 / 2 := by simp [mean]
  have e4 : mean ([0, 1000] : List R) = 500 := by simp [mean]; norm_num
  intro h
  simp only [Prep.transformC, STD.transform, scaleData, List.map_cons, List.map_nil, mul_zero, mul_one, if_true, e1, e2, e3, e4, List.zip_cons_cons,
    List.zip_nil_left, List.zipWith_cons_cons, List.zipWith_nil_left, Except.ok.injEq, List.cons.injEq, and_true] at h
  norm_num at h

end Fruits
