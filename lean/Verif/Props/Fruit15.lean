import Verif.Props.Texts1
import Verif.Props.Summary1
import Verif.Props.Fruit10

/-! # C110: fitting does not change how a fruit looks

`nfeatures()`, `label(...)` and `summary()` of every fruit and every slice return the same before and after `fit`, whether `fit` returns or raises. -/

namespace Fruits
set_option linter.unusedSectionVars false

variable {R P I W S V : Type} [Field R] [LinearOrder R] [IsStrictOrderedRing R] [FloorRing R]

/-! ### Specification -/

/-- Every question about the looks of fruits and slices has the same answer in both states. -/
structure LooksAlike (K : Sem R P I W S V) (N : Names I W S) (w w' : World R P I W S) : Prop where
  fruitN : ∀ f, fruitN K w' f = fruitN K w f
  fruitLabel : ∀ verbose level f index, fruitLabel K w' verbose level f index = fruitLabel K w verbose level f index
  fruitSummary : ∀ f, fruitSummary K N w' f = fruitSummary K N w f
  sliceN : ∀ s, sliceN K w' s = sliceN K w s
  sliceLabel : ∀ verbose level s index, sliceLabel K w' verbose level s index = sliceLabel K w verbose level s index
  sliceSummary : ∀ s, sliceSummary K N w' s = sliceSummary K N w s

/-- Fitting a seed does not change how it is shown. -/
structure ShownAlike (K : Sem R P I W S V) (N : Names I W S) : Prop where
  prep : ∀ (g : Rng R) p C X q, K.prepFit g p C X = .ok q → K.prepLabel q = K.prepLabel p
  count : ∀ (g : Rng R) i ws C X j, K.issFit g i ws C X = .ok j → K.issCount j ws = K.issCount i ws
  label : ∀ (g : Rng R) i ws C X j, K.issFit g i ws C X = .ok j → ∀ n, K.issLabel j ws n = K.issLabel i ws n
  name : ∀ (g : Rng R) i ws C X j, K.issFit g i ws C X = .ok j → N.iss j = N.iss i
  semiring : ∀ (g : Rng R) i ws C X j, K.issFit g i ws C X = .ok j → N.semiring j = N.semiring i
  weighting : ∀ (g : Rng R) i ws C X j, K.issFit g i ws C X = .ok j → N.weighting j = N.weighting i

/-! ### What fitting keeps -/

/-- The configurations are the same and the seeds are shown in the same way. -/
structure KeepsLook (K : Sem R P I W S V) (N : Names I W S) (w w' : World R P I W S) : Prop where
  prep : ∀ a, K.prepLabel (w'.prep a) = K.prepLabel (w.prep a)
  count : ∀ a, K.issCount (w'.issAt a).1 (w'.issAt a).2 = K.issCount (w.issAt a).1 (w.issAt a).2
  label : ∀ a n, K.issLabel (w'.issAt a).1 (w'.issAt a).2 n = K.issLabel (w.issAt a).1 (w.issAt a).2 n
  name : ∀ a, N.iss (w'.issAt a).1 = N.iss (w.issAt a).1
  words : ∀ a, (w'.issAt a).2 = (w.issAt a).2
  semiring : ∀ a, N.semiring (w'.issAt a).1 = N.semiring (w.issAt a).1
  weighting : ∀ a, N.weighting (w'.issAt a).1 = N.weighting (w.issAt a).1
  sieve : w'.sieve = w.sieve
  slice : ∀ s, (w.slice s).SameConf (w'.slice s)
  slices : ∀ f, (w'.fruit f).slices = (w.fruit f).slices
  fruit : ∀ f, (w'.fruit f).name = (w.fruit f).name

variable {K : Sem R P I W S V} {N : Names I W S}

theorem KeepsLook.refl (w : World R P I W S) : KeepsLook K N w w :=
  ⟨fun _ => rfl, fun _ => rfl, fun _ _ => rfl, fun _ => rfl, fun _ => rfl, fun _ => rfl, fun _ => rfl, rfl, fun _ => .refl _, fun _ => rfl, fun _ => rfl⟩

theorem KeepsLook.trans {w w₁ w₂ : World R P I W S} (h : KeepsLook K N w w₁) (h' : KeepsLook K N w₁ w₂) : KeepsLook K N w w₂ :=
  ⟨fun a => (h'.prep a).trans (h.prep a), fun a => (h'.count a).trans (h.count a), fun a n => (h'.label a n).trans (h.label a n),
    fun a => (h'.name a).trans (h.name a), fun a => (h'.words a).trans (h.words a), fun a => (h'.semiring a).trans (h.semiring a),
    fun a => (h'.weighting a).trans (h.weighting a), h'.sieve.trans h.sieve, fun s => (h.slice s).trans (h'.slice s),
    fun f => (h'.slices f).trans (h.slices f), fun f => (h'.fruit f).trans (h.fruit f)⟩

theorem KeepsLook.tick (w : World R P I W S) : KeepsLook K N w w.tick :=
  ⟨fun _ => rfl, fun _ => rfl, fun _ _ => rfl, fun _ => rfl, fun _ => rfl, fun _ => rfl, fun _ => rfl, rfl, fun _ => .refl _, fun _ => rfl, fun _ => rfl⟩

theorem KeepsLook.setPrep {w : World R P I W S} {a : ℕ} {p : P} (h : K.prepLabel p = K.prepLabel (w.prep a)) : KeepsLook K N w (w.tick.setPrep a p) := by
  refine ⟨fun b => ?_, fun _ => rfl, fun _ _ => rfl, fun _ => rfl, fun _ => rfl, fun _ => rfl, fun _ => rfl, rfl, fun _ => .refl _, fun _ => rfl, fun _ => rfl⟩
  by_cases hb : b = a
  · subst hb; simpa [World.setPrep] using h
  · simp [World.setPrep, World.tick, hb]

theorem KeepsLook.setIss {w : World R P I W S} {a : ℕ} {i : I} (hc : K.issCount i (w.issAt a).2 = K.issCount (w.issAt a).1 (w.issAt a).2)
    (hl : ∀ n, K.issLabel i (w.issAt a).2 n = K.issLabel (w.issAt a).1 (w.issAt a).2 n) (hn : N.iss i = N.iss (w.issAt a).1)
    (hs : N.semiring i = N.semiring (w.issAt a).1) (hw : N.weighting i = N.weighting (w.issAt a).1) : KeepsLook K N w (w.tick.setIss a i) := by
  have key : ∀ b, (w.tick.setIss a i).issAt b = if b = a then (i, (w.issAt a).2) else w.issAt b := fun b => issAt_setIss w.tick a i b
  refine ⟨fun _ => rfl, fun b => ?_, fun b n => ?_, fun b => ?_, fun b => ?_, fun b => ?_, fun b => ?_, rfl, fun _ => .refl _, fun _ => rfl, fun _ => rfl⟩ <;>
  · rw [key]
    split
    · rename_i hb; subst hb; first | exact hc | exact hl n | exact hn | rfl | exact hs | exact hw
    · rfl

theorem KeepsLook.setSlice {w : World R P I W S} {s : ℕ} {o : SliceObj R S} (h : (w.slice s).SameConf o) (r : ℕ) :
    KeepsLook K N w { w.setSlice s o with rnd := r } := by
  refine ⟨fun _ => rfl, fun _ => rfl, fun _ _ => rfl, fun _ => rfl, fun _ => rfl, fun _ => rfl, fun _ => rfl, rfl, fun t => ?_, fun _ => rfl, fun _ => rfl⟩
  by_cases ht : t = s
  · subst ht; simpa [World.setSlice] using h
  · simp [World.setSlice, ht, SliceObj.SameConf.refl]

theorem fitPreps_look (hK : ShownAlike K N) {ρ : ℕ → Rng R} {C : Data R} : ∀ (as : List ℕ) (X : Data R) (w : World R P I W S),
    KeepsLook K N w (fitPreps K ρ C as X w).2
  | [], _, w => .refl w
  | a :: as, X, w => by
    rw [fitPreps]
    rcases hp : K.prepFit (ρ w.rnd) (w.prep a) C X with e | p
    · exact .tick w
    · have h1 : KeepsLook K N w (w.tick.setPrep a p) := .setPrep (hK.prep _ _ _ _ _ hp)
      dsimp only
      rcases K.prepTransform p C X with e | Y
      · exact h1
      · exact h1.trans (fitPreps_look hK as Y _)

theorem fitIss_look (hK : ShownAlike K N) {ρ : ℕ → Rng R} {C X : Data R} : ∀ (as : List ℕ) (w : World R P I W S),
    KeepsLook K N w (fitIss K ρ C X as w).2
  | [], w => .refl w
  | a :: as, w => by
    rw [fitIss]
    split
    · rcases hi : K.issFit (ρ w.rnd) (w.issAt a).1 (w.issAt a).2 C X with e | i
      · exact .tick w
      · have h1 : KeepsLook K N w (w.tick.setIss a i) := .setIss (hK.count _ _ _ _ _ _ hi) (hK.label _ _ _ _ _ _ hi) (hK.name _ _ _ _ _ _ hi)
          (hK.semiring _ _ _ _ _ _ hi) (hK.weighting _ _ _ _ _ _ hi)
        exact h1.trans (fitIss_look hK as _)
    · exact fitIss_look hK as w

theorem fitFinish_look {ρ : ℕ → Rng R} {s : ℕ} {C X : Data R} (w : World R P I W S) : KeepsLook K N w (fitFinish K ρ s C X w).2 := by
  unfold fitFinish
  split
  · split
    · next rows e r _ => exact KeepsLook.setSlice (K := K) (N := N) (w := w) (s := s) (o := { w.slice s with ext := rows }) ⟨rfl, rfl, rfl, rfl⟩ r
    · next rows r _ => exact KeepsLook.setSlice (K := K) (N := N) (w := w) (s := s) (o := { w.slice s with ext := rows, fitted := true }) ⟨rfl, rfl, rfl, rfl⟩ r
  · exact KeepsLook.setSlice (K := K) (N := N) (w := w) (s := s) (o := { w.slice s with fitted := true }) ⟨rfl, rfl, rfl, rfl⟩ w.rnd

theorem sliceFit_look (hK : ShownAlike K N) {ρ : ℕ → Rng R} {s : ℕ} {C X : Data R} (w : World R P I W S) : KeepsLook K N w (sliceFit K ρ s C X w).2 := by
  unfold sliceFit
  split
  · exact .refl w
  split
  · exact .refl w
  rcases selectSample (ρ w.rnd) (w.slice s).sample X with e | D
  · exact .tick w
  dsimp only
  have h1 := fitPreps_look (N := N) hK (ρ := ρ) (C := C) (w.slice s).preps D w.tick
  rcases hp : fitPreps K ρ C (w.slice s).preps D w.tick with ⟨e | Y, w1⟩
  · rw [hp] at h1; exact (KeepsLook.tick w).trans h1
  rw [hp] at h1
  dsimp only at h1 ⊢
  have h2 := fitIss_look (N := N) hK (ρ := ρ) (C := C) (X := Y) (w.slice s).iss w1
  rcases hi : fitIss K ρ C Y (w.slice s).iss w1 with ⟨e | u, w2⟩
  · rw [hi] at h2; exact (KeepsLook.tick w).trans (h1.trans h2)
  · rw [hi] at h2
    exact (KeepsLook.tick w).trans (h1.trans (h2.trans (fitFinish_look w2)))

theorem fitSlices_look (hK : ShownAlike K N) {ρ : ℕ → Rng R} {C X : Data R} : ∀ (ss : List ℕ) (w : World R P I W S),
    KeepsLook K N w (fitSlices K ρ C X ss w).2
  | [], w => .refl w
  | s :: ss, w => by
    rw [fitSlices]
    have h1 := sliceFit_look (N := N) hK (ρ := ρ) (s := s) (C := C) (X := X) w
    rcases hs : sliceFit K ρ s C X w with ⟨e | u, w1⟩
    · rw [hs] at h1; exact h1
    · rw [hs] at h1; exact h1.trans (fitSlices_look hK ss w1)

theorem KeepsLook.setFitted {w : World R P I W S} {f : ℕ} : KeepsLook K N w (w.setFruit f { w.fruit f with fitted := true }) := by
  have key : ∀ g, ((w.setFruit f { w.fruit f with fitted := true }).fruit g).slices = (w.fruit g).slices ∧
      ((w.setFruit f { w.fruit f with fitted := true }).fruit g).name = (w.fruit g).name := by
    intro g
    by_cases hg : g = f
    · subst hg; simp [World.setFruit]
    · simp [World.setFruit, hg]
  exact ⟨fun _ => rfl, fun _ => rfl, fun _ _ => rfl, fun _ => rfl, fun _ => rfl, fun _ => rfl, fun _ => rfl, rfl, fun _ => .refl _, fun g => (key g).1,
    fun g => (key g).2⟩

theorem fruitFit_look (hK : ShownAlike K N) {ρ : ℕ → Rng R} {f : ℕ} {C X : Data R} (w : World R P I W S) : KeepsLook K N w (fruitFit K ρ f C X w).2 := by
  unfold fruitFit
  have h1 := fitSlices_look (N := N) hK (ρ := ρ) (C := C) (X := X) (w.fruit f).slices w
  rcases hs : fitSlices K ρ C X (w.fruit f).slices w with ⟨e | u, w1⟩
  · rw [hs] at h1; exact h1
  · rw [hs] at h1; exact h1.trans .setFitted

/-! ### What a user sees -/

theorem KeepsLook.sliceCount {w w' : World R P I W S} (h : KeepsLook K N w w') (s : ℕ) : sliceCount K w' s = sliceCount K w s := by
  unfold Fruits.sliceCount
  rw [(h.slice s).2.1]
  simp only [h.count]

theorem KeepsLook.sieveTotal {w w' : World R P I W S} (h : KeepsLook K N w w') (s : ℕ) : sieveTotal K w' s = sieveTotal K w s := by
  unfold Fruits.sieveTotal
  rw [(h.slice s).2.2.1, h.sieve]

theorem KeepsLook.sliceN {w w' : World R P I W S} (h : KeepsLook K N w w') (s : ℕ) : sliceN K w' s = sliceN K w s := by
  unfold Fruits.sliceN
  rw [h.sliceCount, h.sieveTotal]

theorem KeepsLook.issTexts {w w' : World R P I W S} (h : KeepsLook K N w w') (v : Bool) (index : ℚ) : ∀ (as : List ℕ) (n : ℚ),
    issTexts K v index (as.map w'.issAt) n = issTexts K v index (as.map w.issAt) n
  | [], _ => rfl
  | a :: as, n => by
    simp only [List.map_cons, Fruits.issTexts, h.count, h.label, h.issTexts v index as]

theorem KeepsLook.prepText {w w' : World R P I W S} (h : KeepsLook K N w w') (v : Bool) (a : ℕ) : prepText K v (w'.prep a) = prepText K v (w.prep a) := by
  unfold Fruits.prepText
  rw [h.prep]

theorem KeepsLook.itsumText {w w' : World R P I W S} (h : KeepsLook K N w w') (v : Bool) (s : ℕ) (index : ℤ) : itsumText K w' v s index = itsumText K w v s index := by
  unfold Fruits.itsumText
  rw [h.sliceCount, (h.slice s).1, (h.slice s).2.1]
  simp only [h.issTexts, h.prepText]

theorem KeepsLook.sliceLabel {w w' : World R P I W S} (h : KeepsLook K N w w') (v : Bool) (level : Level) (s : ℕ) (index : ℤ) :
    sliceLabel K w' v level s index = sliceLabel K w v level s index := by
  unfold Fruits.sliceLabel
  rw [(h.slice s).1, (h.slice s).2.2.1, h.sieve, h.sieveTotal]
  simp only [h.itsumText, h.prepText]

theorem KeepsLook.labelLoop {w w' : World R P I W S} (h : KeepsLook K N w w') (v : Bool) (level : Level) : ∀ (ss : List ℕ) (index : ℤ),
    labelLoop K w' v level ss index = labelLoop K w v level ss index
  | [], index => by rw [Fruits.labelLoop, Fruits.labelLoop]
  | s :: ss, index => by
    rw [Fruits.labelLoop, Fruits.labelLoop]
    have hl : levelCount K w' level s = levelCount K w level s := by
      unfold levelCount
      rw [h.sliceCount, h.sliceN, (h.slice s).1]
    simp only [hl, h.sliceLabel, h.labelLoop v level ss]

theorem KeepsLook.sliceSummary {w w' : World R P I W S} (h : KeepsLook K N w w') (s : ℕ) : sliceSummary K N w' s = sliceSummary K N w s := by
  unfold Fruits.sliceSummary
  have hb : ∀ a n, issBlock N (w'.issAt a).1 (w'.issAt a).2 n = issBlock N (w.issAt a).1 (w.issAt a).2 n := by
    intro a n
    unfold issBlock
    rw [h.name, h.semiring, h.weighting, h.words]
  rw [h.sliceN]
  simp only [(h.slice s).1, (h.slice s).2.1, (h.slice s).2.2.1, h.sieve, h.count, h.prep, hb]

theorem KeepsLook.looks {w w' : World R P I W S} (h : KeepsLook K N w w') : LooksAlike K N w w' where
  fruitN f := by
    unfold Fruits.fruitN
    rw [h.slices]
    simp only [show Fruits.sliceN K w' = Fruits.sliceN K w from funext h.sliceN]
  fruitLabel v level f index := by
    unfold Fruits.fruitLabel
    rw [h.slices, h.labelLoop]
  fruitSummary f := by
    unfold Fruits.fruitSummary
    have hN : Fruits.fruitN K w' f = Fruits.fruitN K w f := by
      unfold Fruits.fruitN
      rw [h.slices]
      simp only [show Fruits.sliceN K w' = Fruits.sliceN K w from funext h.sliceN]
    rw [hN]
    simp only [h.slices, h.fruit, show Fruits.sliceSummary K N w' = Fruits.sliceSummary K N w from funext h.sliceSummary]
  sliceN := h.sliceN
  sliceLabel := h.sliceLabel
  sliceSummary := h.sliceSummary

/-! ### The property -/

/-- **C110**, for all kinds of seeds that satisfy `ShownAlike`: `Fruit.fit`. -/
theorem C110_fruit (hK : ShownAlike K N) (ρ : ℕ → Rng R) (w : World R P I W S) (f : ℕ) (X : Data R) : LooksAlike K N w (fruitFit K ρ f X X w).2 :=
  (fruitFit_look hK w).looks

/-- **C110**: `FruitSlice.fit`, with any cache. -/
theorem C110_slice (hK : ShownAlike K N) (ρ : ℕ → Rng R) (w : World R P I W S) (s : ℕ) (C X : Data R) : LooksAlike K N w (sliceFit K ρ s C X w).2 :=
  (sliceFit_look hK w).looks

/-- The seeds of the library are shown in the same way before and after they are fitted. -/
theorem builtin_shownAlike [NpMath R] (L : Lib R) (repr : PStr → PStr) : ShownAlike (builtin L) (builtinNames repr) := by
  have hcos : ∀ {g : Rng R} {i : BIss R} {ws : List (IWord R)} {X : Data R} {j : BIss R}, i.fit g ws X = .ok j →
      (∃ o, i = .iss o ∧ j = .iss o) ∨ ∃ c net drops, i = .cos c ∧ j = .cos { c with net := net, drops := drops } := by
    intro g i ws X j h
    cases i with
    | iss o => cases h; exact Or.inl ⟨o, rfl, rfl⟩
    | cos c =>
      simp only [BIss.fit] at h
      rcases hs : simpleWords ws with e | sw
      · rw [hs] at h; cases h
      rw [hs, ok_bind] at h
      rcases hf : c.fit g sw X with e | c'
      · rw [hf] at h; cases h
      rw [hf, ok_bind] at h
      cases h
      obtain ⟨net, drops, rfl, -, -⟩ := CosWISS.fit_spec hf
      exact Or.inr ⟨c, net, drops, rfl, rfl⟩
  constructor
  · intro g p C X q h
    change L.safeFit g p X = .ok q at h
    change q.1.str L.T L.calls = p.1.str L.T L.calls
    unfold Lib.safeFit at h
    split at h
    · cases h
    · next q' hq' =>
      cases h
      unfold Lib.prepFit at hq'
      rcases hf : p.1.fit g L.fuel X with e | _ | x
      · rw [hf] at hq'; cases hq'
      · rw [hf] at hq'; cases hq'
      · rw [hf] at hq'
        cases hq'
        exact C103_fit L.T L.calls hf
  all_goals
    intro g i ws C X j h
    rcases hcos h with ⟨o, rfl, rfl⟩ | ⟨c, net, drops, rfl, rfl⟩
    all_goals first | rfl | (intro n; rfl)

/-- **C110** for the seeds of the library: whatever a fruit is fitted to, and whether `fit` returns or raises, `nfeatures()`, `label(...)` at every level
and `summary()` of all fruits and slices return the same (or raise the same exception) before and after. -/
theorem C110_looks [NpMath R] (L : Lib R) (repr : PStr → PStr) (ρ : ℕ → Rng R) (w : World R (SafePrep R) (BIss R) (List (IWord R)) (SafeSieve R)) (f : ℕ)
    (X : Data R) : LooksAlike (builtin L) (builtinNames repr) w (fruitFit (builtin L) ρ f X X w).2 :=
  C110_fruit (builtin_shownAlike L repr) ρ w f X

end Fruits
