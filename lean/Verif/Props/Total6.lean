import Verif.Props.Total5
import Verif.Props.Fruit15
import Verif.Props.Twi
import Verif.Props.Demo

/-! # C109 for a single slice; the fruit of `experiments/fruit_twi.py` never raises (C108) -/

namespace Fruits
set_option linter.unusedSectionVars false

variable {R : Type} [Field R] [LinearOrder R] [IsStrictOrderedRing R] [FloorRing R] [NpMath R]

/-- **C109** for `FruitSlice.fit` and `FruitSlice.transform` called by the user: a slice of any history that is configured for data with `d` dimensions can
be fitted to every dataset with `d` dimensions and then transforms every dataset with `d` dimensions, into `nfeatures()` columns. -/
theorem C109_slice (L : Lib R) (hT : L.T.Lawful) {ρ : ℕ → Rng R} (hρ : ∀ k, (ρ k).Valid)
    {w₀ w : World R (SafePrep R) (BIss R) (List (IWord R)) (SafeSieve R)} {ops : List (Op R (SafePrep R) (BIss R) (List (IWord R)) (SafeSieve R))}
    (hist : Hist (builtin L) ρ w₀ ops w) (h0 : w₀.Empty) {s : ℕ} (hs : s < w.nSlice) {d N : ℕ} (hd : 0 < d) {changes : Bool} {τ υ : ℕ → ℕ × ℕ}
    (hfor : SliceFor changes N τ υ w d s)
    {Xtrain : Data R} {m₀ n₀ : ℕ} (hX₀ : HasShape Xtrain m₀ d n₀) (hm₀ : 0 < m₀) (hn₀ : 0 < n₀) (hN₀ : N ≤ n₀) :
    ∃ w', sliceFit (builtin L) ρ s Xtrain Xtrain w = (.ok (), w') ∧
      ∀ (c : ℕ) (X : Data R) (m n : ℕ), HasShape X m d n → 0 < m → 0 < n → N ≤ n →
        ∃ k : ℕ, sliceN (builtin L) w s = .ok (k : ℤ) ∧ ∃ A, (sliceTransform (builtin L) w' c s X X).1 = .ok A ∧ HasShape2 A m k := by
  have hext := ExtInv.hist (builtin_keepsN L) hist h0
  have hS := builtin_sound L hT changes N
  have hty := hfor.typed L (hext s hs).1
  obtain ⟨w', h1, h2, _⟩ := sliceFit_total hS hρ hty hX₀ ⟨m₀, d, n₀, hX₀, le_rfl, hd, builtinTyping_len L hn₀ hN₀⟩ hm₀ hd hn₀
  refine ⟨w', h1, fun c X m n hX hm hn hN => ?_⟩
  obtain ⟨k, e1, e2⟩ := sliceTransform_total (n := c) hS h2 hX ⟨m, d, n, hX, le_rfl, hd, builtinTyping_len L hn hN⟩ hX.1 hm hd hn
  refine ⟨k, ?_, e2⟩
  rw [← e1]
  have := (C110_slice (builtin_shownAlike L id) ρ w s Xtrain Xtrain).sliceN s
  rw [h1] at this
  exact this.symm

/-- **C109** again, with the number of columns asked for before fitting (by C110 it does not matter when). -/
theorem C109_columns (L : Lib R) (hT : L.T.Lawful) {ρ : ℕ → Rng R} (hρ : ∀ k, (ρ k).Valid)
    {w₀ w : World R (SafePrep R) (BIss R) (List (IWord R)) (SafeSieve R)} {ops : List (Op R (SafePrep R) (BIss R) (List (IWord R)) (SafeSieve R))}
    (hist : Hist (builtin L) ρ w₀ ops w) (h0 : w₀.Empty) {f : ℕ} (hf : f < w.nFruit) {d N : ℕ} (hd : 0 < d) {changes : Bool} {τ υ : ℕ → ℕ × ℕ}
    (hs : ∀ s ∈ (w.fruit f).slices, SliceFor changes N τ υ w d s)
    {Xtrain : Data R} {m₀ n₀ : ℕ} (hX₀ : HasShape Xtrain m₀ d n₀) (hm₀ : 0 < m₀) (hn₀ : 0 < n₀) (hN₀ : N ≤ n₀) :
    ∃ w', fruitFit (builtin L) ρ f Xtrain Xtrain w = (.ok (), w') ∧
      ∀ (c : ℕ) (X : Data R) (m n : ℕ), HasShape X m d n → 0 < m → 0 < n → N ≤ n →
        ∃ k : ℕ, fruitN (builtin L) w f = .ok (k : ℤ) ∧ ∃ A, (fruitTransform (builtin L) w' c f X X).1 = .ok A ∧ HasShape2 A m k := by
  obtain ⟨w', h1, h2⟩ := C109_total L hT hρ hist h0 hf hd hs hX₀ hm₀ hn₀ hN₀
  refine ⟨w', h1, fun c X m n hX hm hn hN => ?_⟩
  obtain ⟨k, e1, e2⟩ := h2 c X m n hX hm hn hN
  refine ⟨k, ?_, e2⟩
  rw [← e1]
  have := (C110_looks L id ρ w f Xtrain).fruitN f
  rw [h1] at this
  exact this.symm

/-! ### `experiments/fruit_twi.py` -/

theorem twiScript_live (L : Lib R) (ρ : ℕ → Rng R) (ws vs : List (IWord R))
    (w0 : World R (SafePrep R) (BIss R) (List (IWord R)) (SafeSieve R)) (h0 : w0.Empty) : LiveAll (builtin L) ρ (twiScript ws vs) w0 := by
  obtain ⟨e1, e2, e3, e4, e5, e6⟩ := h0
  simp [LiveAll, twiScript, Op.Live, Arg.Live, step, World.newFruit, fruitCutNew, fruitCut, World.newSlice, World.setFruit, fruitAdd, ensureSlice, currentSlice, sliceAdd,
    sliceAddPrep, sliceAddIss, sliceAddSieve, World.newPrep, World.newIss, World.newWords, World.newSieve, World.setSlice, sliceSetSample, World.issAt, World.setPrep,
    World.setIss, World.setWords, World.setSieve, Function.update, e1, e2, e3, e4, e5, e6]

theorem TwiWorld.sliceFor {l : List (SWord R)} {order : List ℤ → List ℤ} (ho : SetOrder order) {permSet : List ℕ → List (List ℕ)} (hp : PermOrder permSet)
    {k n : ℕ} (hk : 1 ≤ k) (hl : ofWeight R order permSet k 1 = .ok l) {w : World R (SafePrep R) (BIss R) (List (IWord R)) (SafeSieve R)}
    (hw : TwiWorld (l.map .simple) [.simple (altWord R n 0), .simple (altWord R n 1)] w) {d : ℕ} (hd : 1 ≤ d) :
    ∀ s ∈ (w.fruit 0).slices, SliceFor false 0 (fun _ => (d, d)) (fun _ => (d, d)) w d s := by
  obtain ⟨s0, s1, s2, s3, s4⟩ := hw.sieves
  have hnpi : (npiDefault : SafeSieve R).1.Accepts .aligned 0 := by
    simp only [npiDefault, Sieve.Accepts, Seg.GoodQ]
    exact ⟨by simp, by intro q hq; simp at hq; rcases hq with rfl | rfl <;> right <;> norm_num⟩
  have hmpi : (mpiDefault : SafeSieve R).1.Accepts .aligned 0 := by
    simp only [mpiDefault, Sieve.Accepts, Seg.GoodQ]
    exact ⟨by simp, by intro q hq; simp at hq; rcases hq with rfl | rfl <;> right <;> norm_num⟩
  have hend : (endDefault : SafeSieve R).1.Accepts .aligned 0 := by
    simp only [endDefault, Sieve.Accepts, Seg.GoodQ, Seg.GoodCut]
    refine ⟨⟨⟨by simp, ?_⟩, rfl⟩, ?_⟩
    · intro q hq
      simp at hq
      rcases hq with rfl | rfl
      · left; rfl
      · right; norm_num
    · intro c hc
      simp at hc
      subst hc
      norm_num
  intro s hs
  rw [hw.fruit] at hs
  simp only [List.mem_cons, List.not_mem_nil, or_false] at hs
  rcases hs with rfl | rfl
  · constructor
    · rw [hw.slice0]; simp
    · rw [hw.slice0]; simp
    · rw [hw.slice0]; exact ⟨one_pos, le_rfl⟩
    · rw [hw.slice0]; exact ⟨d, ⟨rfl, rfl⟩, rfl, trivial⟩
    · rw [hw.slice0]
      intro a ha
      rw [List.mem_singleton] at ha
      subst ha
      rw [hw.prep]
      simp [incDefault, Prep.Accepts, INC.ok]
    · rw [hw.slice0]
      intro a ha
      rw [List.mem_singleton] at ha
      subst ha
      rw [hw.iss0]
      refine ⟨?_, ?_, ?_, ?_⟩
      · exact (ofWeight_simpleISS ho hp hk (le_refl 1) hl .extended .reals (by decide) none).nonempty
      · intro h; cases h
      · intro u hu
        obtain ⟨v, hv, rfl⟩ := List.mem_map.1 hu
        exact fun el hel => ((ofWeight_letters ho hp hk hl hd v hv).2 el hel).1
      · intro q hq
        cases hq
        exact Or.inr rfl
    · rw [hw.slice0]
      intro a ha
      simp only [List.mem_cons, List.not_mem_nil, or_false] at ha
      rcases ha with rfl | rfl | rfl
      · rw [s0]; exact hnpi
      · rw [s1]; exact hmpi
      · rw [s2]; exact hend
  · constructor
    · rw [hw.slice1]; simp
    · rw [hw.slice1]; simp
    · rw [hw.slice1]; exact ⟨one_pos, le_rfl⟩
    · rw [hw.slice1]; exact ⟨d, rfl, rfl, trivial⟩
    · rw [hw.slice1]; simp
    · rw [hw.slice1]
      intro a ha
      rw [List.mem_singleton] at ha
      subst ha
      rw [hw.iss1]
      refine ⟨by simp, ?_, ?_, ?_⟩
      · intro h; cases h
      · intro u hu
        have : ∃ p, u = .simple (altWord R n p) := by
          simp only [List.mem_cons, List.not_mem_nil, or_false] at hu
          rcases hu with rfl | rfl <;> exact ⟨_, rfl⟩
        obtain ⟨p, rfl⟩ := this
        intro el hel
        obtain ⟨i, _, rfl⟩ := mem_tab.1 hel
        exact hd
      · intro q hq
        cases hq
    · rw [hw.slice1]
      intro a ha
      simp only [List.mem_cons, List.not_mem_nil, or_false] at ha
      rcases ha with rfl | rfl
      · rw [s3]; exact hnpi
      · rw [s4]; exact hend

/-- **C108**, complete: the fruit of `experiments/fruit_twi.py` can be fitted to every dataset (with any number of dimensions and any length), transforms every
dataset with this number of dimensions into 1725 columns, and returns the same for the dataset with repeated samples.  Nothing raises. -/
theorem C108_total (L : Lib R) (hT : L.T.Lawful) (hexp : ExpLike L.expf) {ρ : ℕ → Rng R} (hρ : ∀ k, (ρ k).Valid)
    (w0 : World R (SafePrep R) (BIss R) (List (IWord R)) (SafeSieve R)) (h0 : w0.Empty)
    (order : List ℤ → List ℤ) (ho : SetOrder order) (permSet : List ℕ → List (List ℕ)) (hp : PermOrder permSet) (l vs : List (SWord R)) (u : SWord R)
    (hl : ofWeight R order permSet 9 1 = .ok l) (hu : SWord.mk' R order (onesStr 48) = .ok u) (hv : alternateSign order [u] = .ok vs)
    {Xtrain : Data R} {m₀ d n₀ : ℕ} (hX₀ : HasShape Xtrain m₀ d n₀) (hm₀ : 0 < m₀) (hd : 0 < d) (hn₀ : 0 < n₀) :
    ∃ w, fruitFit (builtin L) ρ 0 Xtrain Xtrain (runOps (builtin L) ρ (twiScript (l.map .simple) (vs.map .simple)) w0) = (.ok (), w) ∧
      ∀ (c : ℕ) (X : Data R) (m n : ℕ), HasShape X m d n → 0 < m → 0 < n →
        ∃ A, HasShape2 A m 1725 ∧ (fruitTransform (builtin L) w c 0 X X).1 = .ok A ∧
          ∀ (c' n' : ℕ) (φ : ℕ → ℕ → ℕ), (∀ i < m, IsWarp n n' (φ i)) → (fruitTransform (builtin L) w c' 0 (warp φ n' X) (warp φ n' X)).1 = .ok A := by
  have hN := C108_nfeatures L ρ w0 h0 order ho permSet hp l vs u hl hu hv
  have hwarp := C108_fruit_twi L hT hexp ρ w0 h0 order ho permSet hp l vs u hl hu hv Xtrain Xtrain
  obtain ⟨u', e1, e2⟩ := alternate_ones (R := R) ho (n := 48) (by omega)
  have hu' := hu
  rw [e1] at hu'
  cases hu'
  rw [e2] at hv
  cases hv
  have hw := twiScript_world L ρ (l.map .simple) [.simple (altWord R 48 0), .simple (altWord R 48 1)] w0 h0
  have hhist := Hist.run _ (twiScript_live L ρ (l.map .simple) [.simple (altWord R 48 0), .simple (altWord R 48 1)] w0 h0)
  have hf : 0 < (runOps (builtin L) ρ (twiScript (l.map .simple) [.simple (altWord R 48 0), .simple (altWord R 48 1)]) w0).nFruit := by
    obtain ⟨e1, e2, e3, e4, e5, e6⟩ := h0
    simp [runOps, twiScript, step, World.newFruit, fruitCutNew, fruitCut, World.newSlice, World.setFruit, fruitAdd, ensureSlice, currentSlice, sliceAdd,
      sliceAddPrep, sliceAddIss, sliceAddSieve, World.newPrep, World.newIss, World.newWords, World.newSieve, World.setSlice, sliceSetSample, World.issAt, World.setPrep,
      World.setIss, World.setWords, World.setSieve, Function.update, e1, e2, e3, e4, e5, e6]
  obtain ⟨w, h1, h2⟩ := C109_columns L hT hρ hhist h0 hf hd (hw.sliceFor ho hp (by omega) hl hd) hX₀ hm₀ hn₀ (Nat.zero_le _)
  refine ⟨w, h1, fun c X m n hX hm hn => ?_⟩
  obtain ⟨k, e3, A, e4, e5⟩ := h2 c X m n hX hm hn (Nat.zero_le _)
  have hk : k = 1725 := by
    have := hN
    simp only [List.map_cons, List.map_nil] at this
    rw [e3] at this
    have := Except.ok.inj this
    exact_mod_cast this
  subst hk
  exact ⟨A, e5, e4, fun c' n' φ hφ => by rw [hwarp X w h1 hX hm hd hφ c c', e4]⟩

/-! ### `SliceFor` for a slice that changes the length of the series -/

namespace Demo

/-- `LAG -> STD -> ISS([1], [1][1]) -> PPV, END`. -/
def w8 : DWorld :=
  { w0 with
    prep := fun a => if a = 0 then ⟨.lag, trivial⟩ else ⟨.std { eps := 1 }, trivial⟩
    words := fun _ => wordList
    sieve := fun a => if a = 0 then ppvHalf else endSieve
    slice := fun _ => { preps := [0, 1], iss := [0], sieves := [0, 1] } }

theorem w8_for : SliceFor true 1 (fun a => if a = 0 then (3, 6) else (6, 6)) (fun _ => (6, 6)) w8 3 0 where
  iss_ne := by simp [w8]
  sieves_ne := by simp [w8]
  sample := by simp [w8, SampleOk]
  chain := ⟨6, ⟨rfl, rfl, rfl⟩, rfl, trivial⟩
  prep := by simp [w8, Prep.Accepts]
  iss := by
    simp only [w8, List.mem_singleton, forall_eq, World.issAt, w0, issSingle, BIss.Accepts, ISSObj.Accepts]
    refine ⟨by simp [wordList], (by intro h; cases h), ?_, by simp⟩
    simp [wordList, IWord.On]
  sieve := by
    simp only [w8, List.mem_cons, List.not_mem_nil, or_false, forall_eq_or_imp, forall_eq, if_true]
    refine ⟨?_, ?_⟩
    · simp only [ppvHalf, Sieve.Accepts, PPV.ok]
      norm_num
    · simp only [endSieve, show (1 : ℕ) ≠ 0 by omega, if_false, Sieve.Accepts, Seg.GoodQ, Seg.GoodCut]
      norm_num
      simp

end Demo

end Fruits
