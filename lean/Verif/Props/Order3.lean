import Verif.Props.Order2
import Verif.Props.Total5
import Verif.Props.Demo4

/-! # C167: the order of the training series, part 3: fruits of the library's seeds -/

namespace Fruits
set_option linter.unusedSectionVars false

section
variable {R : Type} [Field R] [LinearOrder R] [IsStrictOrderedRing R] [FloorRing R]

theorem Prep.fit_independent [NpMath R] (g : Rng R) (fuel : ℕ) : ∀ (p q : Prep R) (X : Data R), p.fit g fuel X = .ok (some q) →
    p.FunsIndependent → q.FunsIndependent
  | .dim p dims, q, X, h, hp => by
    simp only [Prep.fit] at h
    rcases hs : selectDims dims X with e | sub
    · rw [hs] at h; cases h
    · rw [hs, ok_bind] at h
      rcases hr : p.fit g fuel sub with e | r
      · rw [hr] at h; cases h
      · rw [hr, ok_bind] at h
        cases r with
        | none => cases h
        | some p' =>
          cases h
          exact Prep.fit_independent g fuel p p' sub hr hp
  | .new (some p), q, X, h, hp => by
    simp only [Prep.fit] at h
    rcases hr : p.fit g fuel X with e | r
    · rw [hr] at h; cases h
    · rw [hr, ok_bind] at h
      cases r with
      | none => cases h
      | some p' =>
        cases h
        exact Prep.fit_independent g fuel p p' X hr hp
  | .new none, q, X, h, hp => by cases h; trivial
  | .func f, q, X, h, hp => by cases h; exact hp
  | .inc _, q, X, h, _ => by cases h; trivial
  | .nrm _, q, X, h, _ => by cases h; trivial
  | .lag, q, X, h, _ => by cases h; trivial
  | .win _, q, X, h, _ => by cases h; trivial
  | .spe _, q, X, h, _ => by cases h; trivial
  | .rpe _, q, X, h, _ => by cases h; trivial
  | .cts _, q, X, h, _ => by cases h; trivial
  | .std _, q, X, h, _ => by cases h; trivial
  | .mav _, q, X, h, _ => by cases h; trivial
  | .ffn _, q, X, h, _ => by cases h; trivial
  | .dot _, q, X, h, _ => by cases h; trivial
  | .rin p, q, X, h, _ => by
    simp only [Prep.fit] at h
    rcases hr : p.fit g fuel X with e | r
    · rw [hr] at h; cases h
    · rw [hr, ok_bind] at h
      cases r with
      | none => cases h
      | some p' => cases h; trivial
  | .rdw p, q, X, h, _ => by
    simp only [Prep.fit] at h
    rcases hr : p.fit g X with e | r
    · rw [hr] at h; cases h
    · rw [hr, ok_bind] at h; cases h; trivial
  | .jld p, q, X, h, _ => by
    simp only [Prep.fit] at h
    rcases hr : p.fit g X with e | r
    · rw [hr] at h; cases h
    · rw [hr, ok_bind] at h; cases h; trivial
  | .qtc p, q, X, h, _ => by
    simp only [Prep.fit] at h
    rcases hr : p.fit X with e | r
    · rw [hr] at h; cases h
    · rw [hr, ok_bind] at h; cases h; trivial
  | .dil p, q, X, h, _ => by
    simp only [Prep.fit] at h
    rcases hr : p.fit g X with e | r
    · rw [hr] at h; cases h
    · rw [hr, ok_bind] at h; cases h; trivial
  | .pdd p, q, X, h, _ => by
    simp only [Prep.fit] at h
    rcases hr : p.fit X with e | r
    · rw [hr] at h; cases h
    · rw [hr, ok_bind] at h; cases h; trivial

theorem safeFit_ok [NpMath R] {L : Lib R} {g : Rng R} {p q : SafePrep R} {X : Data R} (h : L.safeFit g p X = .ok q) :
    p.1.fit g L.fuel X = .ok (some q.1) := by
  have h1 : L.prepFit g p.1 X = .ok q.1 := by rw [← Lib.safeFit_val, h]; rfl
  unfold Lib.prepFit at h1
  rcases hr : p.1.fit g L.fuel X with e | r
  · rw [hr] at h1; cases h1
  rw [hr] at h1
  cases r with
  | none => cases h1
  | some q' => cases h1; rfl

theorem sieveCopy_ok {L : Lib R} {s t : SafeSieve R} (h : L.sieveCopy s = .ok t) : s.1.copy L.setOrder = .ok t.1 := by
  unfold Lib.sieveCopy at h
  split at h
  · cases h
  · rename_i h1
    cases h
    exact h1

theorem CosWISS.fit_perm (g : Rng R) (c : CosWISS R) (sw : List (SWord R)) {X X' : Data R} (hX : Uni X) (h : X.Perm X') :
    c.fit g sw X' = c.fit g sw X := by
  obtain ⟨-, h1, h2⟩ := hX.perm h
  unfold CosWISS.fit
  rw [h1, h2]

/-- The seeds of the library learn the same from the same series in another order. -/
theorem builtin_unordered [NpMath R] (L : Lib R) : (builtin L).Unordered (fun p => p.1.cacheFree ∧ p.1.FunsIndependent)
    (fun i ws => i.cacheFree ∧ i.LocalOK ws) (fun s => s.1.UsesAll) where
  prepFit := fun g p _ _ X X' q q' _ _ hX h e e' => by
    have := C167_prep_fit g L.fuel p.1 X X' _ _ h hX (safeFit_ok e) (safeFit_ok e')
    exact Subtype.ext (Option.some.inj this)
  prepKeep := fun g p C X q hq h =>
    ⟨(builtin_cacheFree L).prepKeep g p C X q hq.1 h, Prep.fit_independent g L.fuel p.1 q.1 X (safeFit_ok h) hq.2⟩
  prepLocal := fun p hp => perS_prep L.T _ hp.2
  prepCache := fun p C C' X hp => (builtin_cacheFree L).prepTransform p C C' X hp.1
  issFit := fun g i ws _ _ X X' j j' _ _ hX h e e' => by
    change BIss.fit g i ws X = .ok j at e
    change BIss.fit g i ws X' = .ok j' at e'
    have : BIss.fit g i ws X' = BIss.fit g i ws X := by
      cases i with
      | iss o => rfl
      | cos c =>
        simp only [BIss.fit]
        cases simpleWords ws with
        | error e => rfl
        | ok sw => simp only [ok_bind, c.fit_perm g sw hX h]
    rw [this, e] at e'
    cases e'
    rfl
  issKeep := fun g i ws C X j hq h us hu => by
    refine ⟨(builtin_cacheFree L).issKeep g i ws C X j hq.1 h, ?_⟩
    change BIss.fit g i ws X = .ok j at h
    cases i with
    | iss o => cases h; exact hu.2
    | cos c =>
      simp only [BIss.fit] at h
      rcases hs : simpleWords ws with e | sw
      · rw [hs] at h; cases h
      rw [hs, ok_bind] at h
      rcases hc : c.fit g sw X with e | c'
      · rw [hc] at h; cases h
      rw [hc, ok_bind] at h
      cases h
      trivial
  issLocal := fun i ws h => genLocal_builtin L _ _ h.2
  issCache := fun i ws C C' X h => (builtin_cacheFree L).issGen i ws C C' X h.1
  sieveFit := fun g s _ _ X X' t t' hg hs h e e' =>
    Subtype.ext (C167_sieve_fit hg s.1 X X' _ _ hs h (safeSieveFit_ok e) (safeSieveFit_ok e'))
  sieveCopy := fun s t hs h => Sieve.copy_usesAll s.1 t.1 (sieveCopy_ok h) hs

/-- A slice that learns from all the series, each on its own: `fit_sample_size` is `1.0`, no seed looks at the cached data of a series (`WIN`,
`SPE` with `step_transform`, L1/L2 weightings of the raw data), user functions treat the series one by one, and `PPV`/`CPV` have
`sample_size=1`. -/
structure LearnsFromAll (w : World R (SafePrep R) (BIss R) (List (IWord R)) (SafeSieve R)) (s : ℕ) : Prop where
  preps : ∀ a ∈ (w.slice s).preps, (w.prep a).1.cacheFree ∧ (w.prep a).1.FunsIndependent
  iss : ∀ a ∈ (w.slice s).iss, (w.iss a).1.cacheFree ∧ (w.iss a).1.LocalOK (w.words (w.iss a).2)
  sieves : ∀ a ∈ (w.slice s).sieves, (w.sieve a).1.UsesAll
  sample : (w.slice s).sample = .float 1

theorem LearnsFromAll.unordered {w : World R (SafePrep R) (BIss R) (List (IWord R)) (SafeSieve R)} {s : ℕ} (h : LearnsFromAll w s) :
    UnorderedSlice (fun p : SafePrep R => p.1.cacheFree ∧ p.1.FunsIndependent) (fun i ws => i.cacheFree ∧ i.LocalOK ws)
      (fun s : SafeSieve R => s.1.UsesAll) w s := ⟨h.preps, h.iss, h.sieves, h.sample⟩

/-- **C167**, the part that holds: if a fruit whose slices learn from all the series can be fitted to a dataset and to the same series in
another order, with the same random numbers, then it has learned exactly the same. -/
theorem C167_fit_partial [NpMath R] (L : Lib R) {ρ : ℕ → Rng R} (hρ : ∀ k, (ρ k).Valid) {X X' : Data R} {m d n : ℕ} (hX : HasShape X m d n)
    (hm : 0 < m) (h : X.Perm X') (f : ℕ) (w w₁ w₁' : World R (SafePrep R) (BIss R) (List (IWord R)) (SafeSieve R))
    (hs : ∀ s ∈ (w.fruit f).slices, LearnsFromAll w s)
    (e : fruitFit (builtin L) ρ f X X w = (.ok (), w₁)) (e' : fruitFit (builtin L) ρ f X' X' w = (.ok (), w₁')) : w₁' = w₁ :=
  (C167_generic (builtin_unordered L) hρ hX.uni (by rintro rfl; have := hX.1; simp at this; omega) h f w w₁ w₁'
    (fun s hm => (hs s hm).unordered) e e').1

/-- **C167**, the features: `fit_transform` of the same series in another order gives the same rows in that order: equal series have equal
features, whatever their places. -/
theorem C167_fit_transform_partial [NpMath R] (L : Lib R) {ρ : ℕ → Rng R} (hρ : ∀ k, (ρ k).Valid) {X X' : Data R} {m d n : ℕ}
    (hX : HasShape X m d n) (hm : 0 < m) (h : X.Perm X') (f : ℕ) (w w₁ w₁' : World R (SafePrep R) (BIss R) (List (IWord R)) (SafeSieve R))
    (hs : ∀ s ∈ (w.fruit f).slices, LearnsFromAll w s)
    (e : fruitFit (builtin L) ρ f X X w = (.ok (), w₁)) (e' : fruitFit (builtin L) ρ f X' X' w = (.ok (), w₁')) {c c' : ℕ} {A A' : List (List R)}
    (hA : (fruitTransform (builtin L) w₁ c f X X).1 = .ok A) (hA' : (fruitTransform (builtin L) w₁' c' f X' X').1 = .ok A') :
    (X.zip A).Perm (X'.zip A') := by
  obtain ⟨h1, h2⟩ := C167_generic (builtin_unordered L) hρ hX.uni (by rintro rfl; have := hX.1; simp at this; omega) h f w w₁ w₁'
    (fun s hm => (hs s hm).unordered) e e'
  subst h1
  have hloc : ∀ s ∈ (w₁'.fruit f).slices, SliceUserLocal w₁' s := by
    intro s hsm
    have := ((hs s (by rw [← h2.fruit]; exact hsm)).unordered).step h2
    exact ⟨fun a ha => (this.preps a ha).2, fun a ha => (this.iss a ha).2⟩
  have hX' := (hX.uni.perm h).1
  obtain ⟨a1, a2⟩ := C97_series_alone L hloc c 0 hX.uni hA
  obtain ⟨b1, b2⟩ := C97_series_alone L hloc c' 0 hX' hA'
  refine perm_of_local (F := fun l => match l with
      | [x] => ((fruitTransform (builtin L) w₁' 0 f [x] [x]).1.map fun B => [x].zip B)
      | _ => .error .indexError) (a := []) (b := ([], [])) ?_ ?_ ?_ ?_ h
  · simp [a1]
  · intro i hi
    dsimp only
    rw [a2 i hi]
    simp only [Except.map]
    congr 1
    rw [getD_getElem (X := X.zip A) (by simp; omega), List.getElem_zip, getD_getElem hi, getD_getElem (by omega)]
    rfl
  · simp [b1]
  · intro i hi
    dsimp only
    rw [b2 i hi]
    simp only [Except.map]
    congr 1
    rw [getD_getElem (X := X'.zip A') (by simp; omega), List.getElem_zip, getD_getElem hi, getD_getElem (by omega)]
    rfl

/-- **C167** without the assumption that `fit` succeeds: for fruits that are configured for the data (`SliceFor`, property C109). -/
theorem C167_total_partial [NpMath R] (L : Lib R) (hT : L.T.Lawful) {ρ : ℕ → Rng R} (hρ : ∀ k, (ρ k).Valid)
    {w₀ w : World R (SafePrep R) (BIss R) (List (IWord R)) (SafeSieve R)} {ops : List (Op R (SafePrep R) (BIss R) (List (IWord R)) (SafeSieve R))}
    (hist : Hist (builtin L) ρ w₀ ops w) (h0 : w₀.Empty) {f : ℕ} (hf : f < w.nFruit) {d N : ℕ} (hd : 0 < d) {changes : Bool} {τ υ : ℕ → ℕ × ℕ}
    (hfor : ∀ s ∈ (w.fruit f).slices, SliceFor changes N τ υ w d s) (hs : ∀ s ∈ (w.fruit f).slices, LearnsFromAll w s)
    {X X' : Data R} {m n : ℕ} (hX : HasShape X m d n) (hm : 0 < m) (hn : 0 < n) (hN : N ≤ n) (h : X.Perm X') :
    ∃ w', fruitFit (builtin L) ρ f X X w = (.ok (), w') ∧ fruitFit (builtin L) ρ f X' X' w = (.ok (), w') := by
  have hX' : HasShape X' m d n := ⟨h.length_eq.symm.trans hX.1, fun s hs => hX.2 s (h.mem_iff.2 hs)⟩
  obtain ⟨w₁, e, -⟩ := C109_total L hT hρ hist h0 hf hd hfor hX hm hn hN
  obtain ⟨w₁', e', -⟩ := C109_total L hT hρ hist h0 hf hd hfor hX' hm hn hN
  have := C167_fit_partial L hρ hX hm h f w w₁ w₁' hs e e'
  subst this
  exact ⟨_, e, e'⟩

end

namespace Demo
namespace Order

/-- Three series of one dimension. -/
def X8 : Data ℚ := [[[1, 2, 4, 3]], [[0, 1, 0, 5]], [[2, 2, 7, 1]]]
/-- The same series in another order. -/
def X8' : Data ℚ := [[[0, 1, 0, 5]], [[2, 2, 7, 1]], [[1, 2, 4, 3]]]

/-- A fruit with `QTC(0.5)`, `INC`, an ISS with two words, `PPV([0.5], sample_size=1)` and `END`, fitted to all the series. -/
def ops8 : List DOp :=
  [.newPrep ⟨.qtc { q := 1/2 }, trivial⟩, .newPrep incPrep, .newWords wordList, .newIss issSingle 0, .newSieve ppvHalf, .newSieve endSieve,
    .newFruit "fruit".toList, .fruitAdd 0 [.prep 0, .prep 1, .iss 0, .sieve 0, .sieve 1], .setSample 0 (.float 1)]

/-- The world after `ops8`. -/
def w8 : DWorld := runOps K5 rng5 ops8 w0

theorem highRng_valid : highRng.Valid where
  randint_range := fun _ lo hi h => ⟨by show lo ≤ hi - 1; omega, by show hi - 1 < hi; omega⟩
  choice_length := fun _ _ _ _ => by simp [highRng]
  choice_nodup := fun _ n k h => by
    refine List.Nodup.map_on ?_ List.nodup_range
    intro x hx y hy e
    rw [List.mem_range] at hx hy
    omega
  choice_lt := fun _ n k h x hx => by
    obtain ⟨i, hi, rfl⟩ := List.mem_map.1 hx
    rw [List.mem_range] at hi
    omega
  uniform_range := fun _ _ _ => ⟨le_rfl, by show (-1 : ℚ) < 1; norm_num⟩

theorem w8_slices : (w8.fruit 0).slices = [0] := by decide +kernel

theorem w8_learns : ∀ s ∈ (w8.fruit 0).slices, LearnsFromAll w8 s := by
  rw [w8_slices]
  intro s hs
  rw [List.mem_singleton] at hs
  subst hs
  have e1 : (w8.slice 0).preps = [0, 1] := by decide +kernel
  have e2 : (w8.slice 0).iss = [0] := by decide +kernel
  have e3 : (w8.slice 0).sieves = [0, 1] := by decide +kernel
  refine ⟨?_, ?_, ?_, rfl⟩
  · rw [e1]
    intro a ha
    rcases List.mem_cons.1 ha with rfl | ha
    · exact ⟨trivial, trivial⟩
    · rw [List.mem_singleton] at ha
      subst ha
      exact ⟨trivial, trivial⟩
  · rw [e2]
    intro a ha
    rw [List.mem_singleton] at ha
    subst ha
    exact ⟨fun k hk => (by cases hk), BIss.NoUser.local (by decide +kernel)⟩
  · rw [e3]
    intro a ha
    rcases List.mem_cons.1 ha with rfl | ha
    · exact rfl
    · rw [List.mem_singleton] at ha
      subst ha
      trivial

/-- The hypotheses of `C167_fit_partial` and `C167_fit_transform_partial` hold: the fits succeed, and there are features, which tell the series
apart. -/
example : (fruitFit K5 rng5 0 X8 X8 w8).1.toOption = some () ∧ (fruitFit K5 rng5 0 X8' X8' w8).1.toOption = some () ∧
    HasShape X8 3 1 4 ∧ X8.Perm X8' ∧ X8 ≠ X8' ∧
    (fruitTransform K5 (fruitFit K5 rng5 0 X8 X8 w8).2 0 0 X8 X8).1.toOption =
      some [[3/4, 2, 1, 1], [1/4, 2, 1/2, -1], [3/4, 1, 3/4, -2]] ∧
    (fruitTransform K5 (fruitFit K5 rng5 0 X8' X8' w8).2 0 0 X8' X8').1.toOption =
      some [[1/4, 2, 1/2, -1], [3/4, 1, 3/4, -2], [3/4, 2, 1, 1]] := by
  refine ⟨by decide +kernel, by decide +kernel, by simp [X8, HasShape], by decide +kernel, by decide +kernel, by decide +kernel, by decide +kernel⟩

/-- `C167_fit_partial` applied to them. -/
example (w₁ w₁' : DWorld) (e : fruitFit K5 rng5 0 X8 X8 w8 = (.ok (), w₁)) (e' : fruitFit K5 rng5 0 X8' X8' w8 = (.ok (), w₁')) : w₁' = w₁ :=
  C167_fit_partial lib5 (fun _ => highRng_valid) (m := 3) (d := 1) (n := 4) (by simp [X8, HasShape]) (by omega) (by decide +kernel) 0 w8 w₁ w₁'
    w8_learns e e'

theorem w8_for : SliceFor false 1 (fun _ => (1, 1)) (fun _ => (1, 1)) w8 1 0 where
  iss_ne := by rw [show (w8.slice 0).iss = [0] by decide +kernel]; simp
  sieves_ne := by rw [show (w8.slice 0).sieves = [0, 1] by decide +kernel]; simp
  sample := by
    show SampleOk (.float (1 : ℚ))
    simp [SampleOk]
  chain := by
    rw [show (w8.slice 0).preps = [0, 1] by decide +kernel, show (w8.slice 0).iss = [0] by decide +kernel]
    exact ⟨1, ⟨rfl, rfl, rfl⟩, rfl, trivial⟩
  prep := by
    rw [show (w8.slice 0).preps = [0, 1] by decide +kernel]
    intro a ha
    rcases List.mem_cons.1 ha with rfl | ha
    · exact ⟨⟨by norm_num, by norm_num⟩, rfl⟩
    · rw [List.mem_singleton] at ha
      subst ha
      exact ⟨le_rfl, rfl⟩
  iss := by
    rw [show (w8.slice 0).iss = [0] by decide +kernel]
    intro a ha
    rw [List.mem_singleton] at ha
    subst ha
    show ISSObj.Accepts _ _ wordList 1
    refine ⟨by simp [wordList], (by intro h; cases h), ?_, by simp⟩
    simp [wordList, IWord.On]
  sieve := by
    rw [show (w8.slice 0).sieves = [0, 1] by decide +kernel]
    intro a ha
    rcases List.mem_cons.1 ha with rfl | ha
    · show Sieve.Accepts _ _ ppvHalf.1
      simp only [ppvHalf, Sieve.Accepts, PPV.ok]
      norm_num
    · rw [List.mem_singleton] at ha
      subst ha
      show Sieve.Accepts _ _ endSieve.1
      simp only [endSieve, Sieve.Accepts, Seg.GoodQ, Seg.GoodCut]
      norm_num
      simp

theorem live8 : LiveAll K5 rng5 ops8 w0 := by
  simp only [LiveAll, ops8, Op.Live, List.mem_cons, List.not_mem_nil, or_false, forall_eq_or_imp, forall_eq, Arg.Live, and_true,
    true_and]
  decide +kernel

theorem w8_for_all : ∀ s ∈ (w8.fruit 0).slices, SliceFor false 1 (fun _ => (1, 1)) (fun _ => (1, 1)) w8 1 s := by
  rw [w8_slices]
  simpa using w8_for

/-- `C167_total_partial` applied to them. -/
example : ∃ w', fruitFit K5 rng5 0 X8 X8 w8 = (.ok (), w') ∧ fruitFit K5 rng5 0 X8' X8' w8 = (.ok (), w') :=
  C167_total_partial lib5 ratText_lawful (fun _ => highRng_valid) (Hist.run ops8 live8) w0_empty (f := 0) (by decide +kernel) (d := 1) (N := 1)
    one_pos (changes := false) w8_for_all w8_learns (m := 3) (n := 4) (by simp [X8, HasShape]) (by omega) (by omega)
    (by omega) (by decide +kernel)

/-- The fruit of `w5` (`WIN(0, 1/2)`, an ISS, `PPV`) with `fit_sample_size` 1.0. -/
def w9 : DWorld := runOps K5 rng5 (ops5 ++ [.setSample 0 (.float 1)]) w0
/-- Three series. -/
def X9 : Data ℚ := [[[1, 1, 1, 9]], [[0, 5, 6, 6]], [[0, 1, 2, 3]]]
/-- The first two are exchanged. -/
def X9' : Data ℚ := [[[0, 5, 6, 6]], [[1, 1, 1, 9]], [[0, 1, 2, 3]]]

/-- **C167** is false in general: a fruit with a `WIN` is fitted to all the series, but to another order of them than the cache belongs to, so the
features depend on the order of the series. -/
theorem C167_counterexample :
    X9.Perm X9' ∧ (w9.slice 0).sample = .float 1 ∧ (∀ a ∈ (w9.slice 0).sieves, (w9.sieve a).1.UsesAll) ∧
    (fruitFit K5 rng5 0 X9 X9 w9).1.toOption = some () ∧ (fruitFit K5 rng5 0 X9' X9' w9).1.toOption = some () ∧
    (fruitTransform K5 (fruitFit K5 rng5 0 X9 X9 w9).2 0 0 X9 X9).1.toOption = some [[1/2, 1], [0, 1], [3/4, 1]] ∧
    (fruitTransform K5 (fruitFit K5 rng5 0 X9' X9' w9).2 0 0 X9 X9).1.toOption = some [[1, 1], [1, 1], [1, 1]] := by
  refine ⟨by decide +kernel, rfl, ?_, by decide +kernel, by decide +kernel, by decide +kernel, by decide +kernel⟩
  have e : (w9.slice 0).sieves = [0] := by decide +kernel
  rw [e]
  intro a ha
  rw [List.mem_singleton] at ha
  subst ha
  exact rfl

end Order
end Demo
end Fruits
