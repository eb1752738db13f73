import Verif.Props.Offset1
import Verif.Props.Units4

/-! # C168: adding constants to the dimensions of the series, part 2: fruits -/

namespace Fruits
set_option linter.unusedSectionVars false

/-! ### The cache depends on increments only -/

section cache
variable {R : Type} [Field R] [LinearOrder R] [IsStrictOrderedRing R] [FloorRing R]

/-- The sums of the cache are the same for both data sets. -/
def SameNormSums (C C' : Data R) : Prop := ∀ nm : Norm, normSum nm C' = normSum nm C

theorem Offsets.sameNormSums {X X' : Data R} (h : Offsets X X') : SameNormSums X X' := by
  intro nm
  unfold normSum
  refine mapM_eq_of (fun s s' hs => ?_) h
  obtain ⟨b, hb⟩ := Offsets.row hs 0
  rw [hb, increments1_off]

theorem computeKey_same (T : FloatText R) {C C' : Data R} (h : SameNormSums C C') (ty : CacheType) (key : PStr) :
    computeKey T ty key C' = computeKey T ty key C := by
  unfold computeKey
  simp only [h _]

theorem coqs_same (T : FloatText R) {C C' : Data R} (h : SameNormSums C C') (q : R) (nm : PStr) : coqs T C' q nm = coqs T C q nm := by
  unfold coqs Cache.new Cache.get Cache.lookup
  simp only [List.find?_nil, Option.map_none, Option.map_some, NdArr.toData, Cache.fill, computeKey_same T h]
  cases computeKey T .coquantile (T.toText q ++ ':' :: nm) C with
  | error e => rfl
  | ok o => cases o <;> rfl

theorem issSums_same (T : FloatText R) {C C' : Data R} (h : SameNormSums C C') (nm : PStr) : issSums T C' nm = issSums T C nm := by
  unfold issSums Cache.new Cache.get Cache.lookup
  simp only [List.find?_nil, Option.map_none, Option.map_some, NdArr.toData, Cache.fill, computeKey_same T h]
  cases computeKey T .iss nm C with
  | error e => rfl
  | ok o => cases o <;> rfl

theorem Prep.transformC_same [NpMath R] (T : FloatText R) {C C' : Data R} (h : SameNormSums C C') (p : Prep R) (X : Data R) :
    p.transformC T C' X = p.transformC T C X := by
  cases p with
  | win p => simp only [Prep.transformC, WIN.transform, coqs_same T h]
  | spe p => simp only [Prep.transformC, SPE.transform, issSums_same T h]
  | new p => cases p <;> simp only [Prep.transformC]
  | _ => simp only [Prep.transformC]

theorem Seg.cuts_same (T : FloatText R) {C C' : Data R} (h : SameNormSums C C') (p : Seg R) (m n : ℕ) : p.cuts T C' m n = p.cuts T C m n := by
  have h : p.cutColumn T C' m n = p.cutColumn T C m n := by
    funext k
    cases k with
    | int k => rfl
    | float f => simp only [Seg.cutColumn, coqs_same T h]
  unfold Seg.cuts
  rw [h]

theorem Sieve.transformC_same (T : FloatText R) {C C' : Data R} (h : SameNormSums C C') (s : Sieve R) (X : List (List R)) :
    s.transformC T C' X = s.transformC T C X := by
  cases s with
  | seg k p =>
    simp only [Sieve.transformC]
    cases k <;> simp only [Seg.transform, Seg.cuts_same T h]
  | inc k i p => simp only [Sieve.transformC, Seg.incTransform, Seg.cuts_same T h]
  | _ => simp only [Sieve.transformC]

theorem weightingFor_same (T : FloatText R) {C C' : Data R} (h : SameNormSums C C') (X : Data R) (o : ISSObj R) (word : IWord R) :
    weightingFor T C' X o word = weightingFor T C X o word := by
  cases word with
  | general w => rfl
  | simple w =>
    simp only [weightingFor]
    rcases o.weighting with _ | ⟨b, k⟩
    · rfl
    · simp only [lookupFor]
      cases k with
      | norm nm onP rel f sc =>
        have hl : (WeightingKind.norm nm onP rel f sc).lookup T C' X = (WeightingKind.norm nm onP rel f sc).lookup T C X := by
          simp only [WeightingKind.lookup, normLookup, issSums_same T h]
        rw [hl]
      | _ => rfl

theorem builtin_sameSums [NpMath R] (L : Lib R) {C C' : Data R} (h : SameNormSums C C') :
    (builtin L).SameCache C C' (fun _ => True) (fun _ => True) where
  prepFit := fun _ _ _ => rfl
  prepTransform := fun p X _ => Prep.transformC_same L.T h p.1 X
  issFit := fun _ _ _ _ => rfl
  issKeep := fun _ _ _ _ _ _ _ => trivial
  issGen := fun i ws X _ => by
    change BIss.gen L i ws C' X = BIss.gen L i ws C X
    cases i with
    | cos c => rfl
    | iss o =>
      simp only [BIss.gen]
      congr 1
      refine yieldWords_congr _ fun i => ?_
      simp only [ISSObj.wordSums]
      cases ws[i]? with
      | none => rfl
      | some word => simp only [weightingFor_same L.T h X o word]
  sieveFit := fun _ _ _ => rfl
  sieveTransform := fun v X => Sieve.transformC_same L.T h v.1 X

end cache

/-! ### Any preparateurs, ISS and sieves -/

section generic

variable {R P I W S V : Type} [Field R] [LinearOrder R] [FloorRing R]

/-- What a relation `Q` of data sets means for the classes of preparateurs: those of `Keeps` keep it, those of `Removes` turn related data into the
same data, and neither of them learns anything that depends on it. -/
structure Sem.Forgets (K : Sem R P I W S V) (C C' : Data R) (Q : Data R → Data R → Prop) (Keeps Removes : P → Prop) : Prop where
  fit : ∀ g p X X', Keeps p ∨ Removes p → Q X X' → K.prepFit g p C' X' = K.prepFit g p C X
  fitKeeps : ∀ g p q C X, K.prepFit g p C X = .ok q → (Keeps p → Keeps q) ∧ (Removes p → Removes q)
  keeps : ∀ p X X', Keeps p → Q X X' → Outcome Q (K.prepTransform p C X) (K.prepTransform p C' X')
  removes : ∀ p X X', Removes p → Q X X' → K.prepTransform p C' X' = K.prepTransform p C X

variable {K : Sem R P I W S V} {C C' : Data R} {Q : Data R → Data R → Prop} {Keeps Removes : P → Prop}

/-- The classes of preparateurs after a step. -/
structure KeepsPreps (Keeps Removes : P → Prop) (w w' : World R P I W S) : Prop where
  keeps : ∀ a, Keeps (w.prep a) → Keeps (w'.prep a)
  removes : ∀ a, Removes (w.prep a) → Removes (w'.prep a)
  fruit : w'.fruit = w.fruit
  slice : ∀ s, (w'.slice s).preps = (w.slice s).preps

theorem KeepsPreps.refl (w : World R P I W S) : KeepsPreps Keeps Removes w w := ⟨fun _ h => h, fun _ h => h, rfl, fun _ => rfl⟩

theorem KeepsPreps.trans {w w₁ w₂ : World R P I W S} (h : KeepsPreps Keeps Removes w w₁) (h' : KeepsPreps Keeps Removes w₁ w₂) :
    KeepsPreps Keeps Removes w w₂ :=
  ⟨fun a e => h'.keeps a (h.keeps a e), fun a e => h'.removes a (h.removes a e), h'.fruit.trans h.fruit, fun s => (h'.slice s).trans (h.slice s)⟩

theorem KeepsPreps.set (hc : K.Forgets C C' Q Keeps Removes) {w : World R P I W S} {a : ℕ} {g : Rng R} {q : P} {C₁ X : Data R}
    (h : K.prepFit g (w.prep a) C₁ X = .ok q) : KeepsPreps Keeps Removes w (w.tick.setPrep a q) := by
  have hk := hc.fitKeeps _ _ _ _ _ h
  have key : ∀ (Q : P → Prop), (Q (w.prep a) → Q q) → ∀ b, Q (w.prep b) → Q ((w.tick.setPrep a q).prep b) := by
    intro Q hQ b hb
    by_cases e : b = a
    · subst e; simpa [World.setPrep] using hQ hb
    · simpa [World.setPrep, World.tick, Function.update_of_ne e] using hb
  exact ⟨key _ hk.1, key _ hk.2, rfl, fun _ => rfl⟩

theorem fitPreps_kept (hc : K.Forgets C C' Q Keeps Removes) (ρ : ℕ → Rng R) : ∀ (as : List ℕ) (X : Data R) (w : World R P I W S),
    KeepsPreps Keeps Removes w (fitPreps K ρ C as X w).2
  | [], X, w => KeepsPreps.refl w
  | a :: as, X, w => by
    rw [fitPreps]
    rcases hp : K.prepFit (ρ w.rnd) (w.prep a) C X with e | p
    · exact ⟨fun _ h => h, fun _ h => h, rfl, fun _ => rfl⟩
    have hset : KeepsPreps Keeps Removes w (w.tick.setPrep a p) := KeepsPreps.set hc hp
    simp only
    rcases K.prepTransform p C X with e | Y
    · exact hset
    · exact hset.trans (fitPreps_kept hc ρ as Y _)

theorem fitIss_kept (ρ : ℕ → Rng R) (X : Data R) : ∀ (as : List ℕ) (w : World R P I W S), KeepsPreps Keeps Removes w (fitIss K ρ C X as w).2
  | [], w => KeepsPreps.refl w
  | a :: as, w => by
    rw [fitIss]
    by_cases hr : K.issRequires (w.issAt a).1 = true
    · rw [if_pos hr]
      rcases K.issFit (ρ w.rnd) (w.issAt a).1 (w.issAt a).2 C X with e | i
      · exact KeepsPreps.trans (w₁ := w.tick) ⟨fun _ h => h, fun _ h => h, rfl, fun _ => rfl⟩ (KeepsPreps.refl _)
      · have h1 : KeepsPreps Keeps Removes w (w.tick.setIss a i) := ⟨fun _ h => h, fun _ h => h, rfl, fun _ => rfl⟩
        exact h1.trans (fitIss_kept ρ X as (w.tick.setIss a i))
    · rw [if_neg hr]; exact fitIss_kept ρ X as w

theorem fitFinish_kept (ρ : ℕ → Rng R) (s : ℕ) (X : Data R) (w : World R P I W S) : KeepsPreps Keeps Removes w (fitFinish K ρ s C X w).2 := by
  have hset : ∀ (o : SliceObj R S) (r : ℕ), o.preps = (w.slice s).preps →
      KeepsPreps Keeps Removes w ((({ w with rnd := r } : World R P I W S)).setSlice s o) := by
    intro o r h1
    refine ⟨fun _ h => h, fun _ h => h, rfl, fun t => ?_⟩
    by_cases e : t = s
    · subst e; simp [World.setSlice, h1]
    · simp [World.setSlice, Function.update_of_ne e]
  rw [fitFinish]
  by_cases hr : anyRequires K w s = true
  · rw [if_pos hr]
    rcases fitItems K ρ C ((w.slice s).sieves.map w.sieve) (iterateIss K C ((w.slice s).iss.map w.issAt) X).1
        (iterateIss K C ((w.slice s).iss.map w.issAt) X).2 w.rnd with ⟨⟨rows, _ | e⟩, r⟩
    · exact hset _ r rfl
    · exact hset _ r rfl
  · rw [if_neg hr]
    exact hset _ w.rnd rfl

theorem sliceFit_kept (hc : K.Forgets C C' Q Keeps Removes) (ρ : ℕ → Rng R) (s : ℕ) (X : Data R) (w : World R P I W S) :
    KeepsPreps Keeps Removes w (sliceFit K ρ s C X w).2 := by
  rw [sliceFit]
  by_cases h1 : (w.slice s).iss = []
  · rw [if_pos h1]; exact KeepsPreps.refl w
  rw [if_neg h1]
  by_cases h2 : (w.slice s).sieves = []
  · rw [if_pos h2]; exact KeepsPreps.refl w
  rw [if_neg h2]
  have htick : KeepsPreps Keeps Removes w w.tick := ⟨fun _ h => h, fun _ h => h, rfl, fun _ => rfl⟩
  rcases selectSample (ρ w.rnd) (w.slice s).sample X with e | Z
  · exact htick
  simp only
  have k1 := htick.trans (fitPreps_kept hc ρ (w.slice s).preps Z w.tick)
  rcases hp : fitPreps K ρ C (w.slice s).preps Z w.tick with ⟨e | Y, w2⟩
  · rw [hp] at k1; exact k1
  rw [hp] at k1
  simp only at k1 ⊢
  have k2 := k1.trans (fitIss_kept (K := K) (C := C) ρ Y (w.slice s).iss w2)
  rcases hi : fitIss K ρ C Y (w.slice s).iss w2 with ⟨e | u, w3⟩
  · rw [hi] at k2; exact k2
  rw [hi] at k2
  exact k2.trans (fitFinish_kept ρ s Y w3)

/-- Fitting the preparateurs after the difference has been removed. -/
theorem fitPreps_same (hS : K.SameCache C C' (fun _ => True) (fun _ => True)) (ρ : ℕ → Rng R) : ∀ (as : List ℕ) (X : Data R) (w : World R P I W S),
    fitPreps K ρ C' as X w = fitPreps K ρ C as X w
  | [], _, _ => rfl
  | a :: as, X, w => by
    rw [fitPreps, fitPreps, hS.prepFit]
    rcases K.prepFit (ρ w.rnd) (w.prep a) C X with e | p
    · rfl
    simp only
    rw [hS.prepTransform p X trivial]
    rcases K.prepTransform p C X with e | Y
    · rfl
    · exact fitPreps_same hS ρ as Y _

/-- The preparateurs of a slice: some that keep the relation, one that removes it, and any others. -/
def ForgetsIn (Keeps Removes : P → Prop) (prep : ℕ → P) (as : List ℕ) : Prop :=
  ∃ pre r post, as = pre ++ r :: post ∧ (∀ a ∈ pre, Keeps (prep a)) ∧ Removes (prep r)

theorem ForgetsIn.step {w w' : World R P I W S} {as : List ℕ} (h : ForgetsIn Keeps Removes w.prep as) (hk : KeepsPreps Keeps Removes w w') :
    ForgetsIn Keeps Removes w'.prep as := by
  obtain ⟨pre, r, post, h1, h2, h3⟩ := h
  exact ⟨pre, r, post, h1, fun a ha => hk.keeps a (h2 a ha), hk.removes r h3⟩

theorem fitPreps_forgets (hS : K.SameCache C C' (fun _ => True) (fun _ => True)) (hc : K.Forgets C C' Q Keeps Removes) (ρ : ℕ → Rng R) :
    ∀ (as : List ℕ) (X X' : Data R) (w : World R P I W S), ForgetsIn Keeps Removes w.prep as → Q X X' →
    fitPreps K ρ C' as X' w = fitPreps K ρ C as X w
  | [], X, X', w, h, _ => by
    obtain ⟨pre, r, post, h1, _⟩ := h
    exact absurd h1 (by simp)
  | a :: as, X, X', w, h, hQ => by
    obtain ⟨pre, r, post, h1, h2, h3⟩ := h
    rw [fitPreps, fitPreps]
    cases pre with
    | nil =>
      obtain ⟨rfl, rfl⟩ := List.cons.inj h1
      rw [hc.fit _ _ X X' (Or.inr h3) hQ]
      rcases hp : K.prepFit (ρ w.rnd) (w.prep a) C X with e | p
      · rfl
      simp only
      rw [hc.removes p X X' ((hc.fitKeeps _ _ _ _ _ hp).2 h3) hQ]
      rcases K.prepTransform p C X with e | Y
      · rfl
      · exact fitPreps_same hS ρ as Y _
    | cons b pre =>
      obtain ⟨rfl, rfl⟩ := List.cons.inj h1
      have ha := h2 a (List.mem_cons_self ..)
      rw [hc.fit _ _ X X' (Or.inl ha) hQ]
      rcases hp : K.prepFit (ρ w.rnd) (w.prep a) C X with e | p
      · rfl
      simp only
      have ht := hc.keeps p X X' ((hc.fitKeeps _ _ _ _ _ hp).1 ha) hQ
      generalize K.prepTransform p C X = t, K.prepTransform p C' X' = t' at ht
      cases ht with
      | error e => rfl
      | ok hq =>
        exact fitPreps_forgets hS hc ρ _ _ _ _ (ForgetsIn.step ⟨pre, r, post, rfl, fun b hb => h2 b (List.mem_cons_of_mem _ hb), h3⟩ (KeepsPreps.set hc hp)) hq

/-- Fitting a slice on related data leads to the same state. -/
theorem sliceFit_forgets (hS : K.SameCache C C' (fun _ => True) (fun _ => True)) (hc : K.Forgets C C' Q Keeps Removes)
    (hσ : ∀ g k X X', Q X X' → Outcome Q (selectSample g k X) (selectSample g k X')) (ρ : ℕ → Rng R) {w : World R P I W S} {s : ℕ}
    (hs : ForgetsIn Keeps Removes w.prep (w.slice s).preps) {X X' : Data R} (hQ : Q X X') : sliceFit K ρ s C' X' w = sliceFit K ρ s C X w := by
  rw [sliceFit, sliceFit]
  by_cases h1 : (w.slice s).iss = []
  · rw [if_pos h1, if_pos h1]
  rw [if_neg h1, if_neg h1]
  by_cases h2 : (w.slice s).sieves = []
  · rw [if_pos h2, if_pos h2]
  rw [if_neg h2, if_neg h2]
  have hsel := hσ (ρ w.rnd) (w.slice s).sample X X' hQ
  generalize selectSample (ρ w.rnd) (w.slice s).sample X = t, selectSample (ρ w.rnd) (w.slice s).sample X' = t' at hsel
  cases hsel with
  | error e => rfl
  | @ok Z Z' hZ =>
    simp only
    rw [fitPreps_forgets hS hc ρ _ Z Z' w.tick hs hZ]
    rcases fitPreps K ρ C (w.slice s).preps Z w.tick with ⟨e | Y, w2⟩
    · rfl
    simp only
    rw [fitIss_same hS]
    rcases fitIss K ρ C Y (w.slice s).iss w2 with ⟨e | u, w3⟩
    · rfl
    simp only
    exact fitFinish_same hS ρ s Y w3 (fun _ _ => trivial)

theorem fitSlices_forgets (hS : K.SameCache C C' (fun _ => True) (fun _ => True)) (hc : K.Forgets C C' Q Keeps Removes)
    (hσ : ∀ g k X X', Q X X' → Outcome Q (selectSample g k X) (selectSample g k X')) (ρ : ℕ → Rng R) {X X' : Data R} (hQ : Q X X') :
    ∀ (ss : List ℕ) (w : World R P I W S), (∀ s ∈ ss, ForgetsIn Keeps Removes w.prep (w.slice s).preps) →
    fitSlices K ρ C' X' ss w = fitSlices K ρ C X ss w ∧ KeepsPreps Keeps Removes w (fitSlices K ρ C X ss w).2
  | [], w, _ => ⟨rfl, KeepsPreps.refl w⟩
  | s :: ss, w, h => by
    rw [fitSlices, fitSlices, sliceFit_forgets hS hc hσ ρ (h s (List.mem_cons_self ..)) hQ]
    have hk := sliceFit_kept hc ρ s X w
    rcases hsf : sliceFit K ρ s C X w with ⟨e | u, w2⟩
    · rw [hsf] at hk; exact ⟨rfl, hk⟩
    rw [hsf] at hk
    simp only at hk ⊢
    obtain ⟨h1, h2⟩ := fitSlices_forgets hS hc hσ ρ hQ ss w2 (fun t ht => by
      rw [hk.slice t]; exact (h t (List.mem_cons_of_mem _ ht)).step hk)
    exact ⟨h1, hk.trans h2⟩

theorem transformPreps_same (hS : K.SameCache C C' (fun _ => True) (fun _ => True)) (n : ℕ) (w : World R P I W S) : ∀ (as : List ℕ) (X : Data R),
    (transformPreps K w n C' as X).1 = (transformPreps K w n C as X).1
  | [], X => rfl
  | a :: as, X => by
    rw [transformPreps, transformPreps, hS.prepTransform _ X trivial]
    rcases K.prepTransform (w.prep a) C X with e | Z
    · rfl
    · exact transformPreps_same hS n w as Z

theorem transformPreps_forgets (hS : K.SameCache C C' (fun _ => True) (fun _ => True)) (hc : K.Forgets C C' Q Keeps Removes) (n : ℕ)
    (w : World R P I W S) : ∀ (as : List ℕ) (X X' : Data R), ForgetsIn Keeps Removes w.prep as → Q X X' →
    (transformPreps K w n C' as X').1 = (transformPreps K w n C as X).1
  | [], X, X', h, _ => by
    obtain ⟨pre, r, post, h1, _⟩ := h
    exact absurd h1 (by simp)
  | a :: as, X, X', h, hQ => by
    obtain ⟨pre, r, post, h1, h2, h3⟩ := h
    rw [transformPreps, transformPreps]
    cases pre with
    | nil =>
      obtain ⟨rfl, rfl⟩ := List.cons.inj h1
      rw [hc.removes _ X X' h3 hQ]
      rcases K.prepTransform (w.prep a) C X with e | Y
      · rfl
      · exact transformPreps_same hS n w as Y
    | cons b pre =>
      obtain ⟨rfl, rfl⟩ := List.cons.inj h1
      have ht := hc.keeps _ X X' (h2 a (List.mem_cons_self ..)) hQ
      generalize K.prepTransform (w.prep a) C X = t, K.prepTransform (w.prep a) C' X' = t' at ht
      cases ht with
      | error e => rfl
      | ok hq => exact transformPreps_forgets hS hc n w _ _ _ ⟨pre, r, post, rfl, fun b hb => h2 b (List.mem_cons_of_mem _ hb), h3⟩ hq

theorem sliceTransform_forgets (hS : K.SameCache C C' (fun _ => True) (fun _ => True)) (hc : K.Forgets C C' Q Keeps Removes)
    {w : World R P I W S} {s : ℕ} (hs : ForgetsIn Keeps Removes w.prep (w.slice s).preps) {X X' : Data R} (hQ : Q X X') (n : ℕ) :
    (sliceTransform K w n s C' X').1 = (sliceTransform K w n s C X).1 := by
  rw [sliceTransform, sliceTransform]
  by_cases hf : (w.slice s).fitted = true
  · rw [if_pos hf, if_pos hf]
    have hY := transformPreps_forgets hS hc n w _ X X' hs hQ
    rcases ht : transformPreps K w n C (w.slice s).preps X with ⟨r1, tr1⟩
    rcases ht' : transformPreps K w n C' (w.slice s).preps X' with ⟨r2, tr2⟩
    rw [ht, ht'] at hY
    simp only at hY
    subst hY
    rcases r2 with e | Y
    · rfl
    · show (transformSieve K w n s C' Y).1 = (transformSieve K w n s C Y).1
      rw [transformSieve_same hS n s Y w (fun _ _ => trivial)]
  · rw [if_neg hf, if_neg hf]

/-- Fitting a fruit on related data leads to the same state, and transforming related data gives the same features. -/
theorem fruit_forgets (hQl : ∀ X X', Q X X' → X'.length = X.length)
    (hσ : ∀ g k X X', Q X X' → Outcome Q (selectSample g k X) (selectSample g k X')) (ρ : ℕ → Rng R)
    (hS : ∀ C C', Q C C' → K.SameCache C C' (fun _ => True) (fun _ => True)) (hc : ∀ C C', Q C C' → K.Forgets C C' Q Keeps Removes)
    {w : World R P I W S} {f : ℕ} (hs : ∀ s ∈ (w.fruit f).slices, ForgetsIn Keeps Removes w.prep (w.slice s).preps) {Xt Xt' : Data R} (ht : Q Xt Xt') :
    fruitFit K ρ f Xt' Xt' w = fruitFit K ρ f Xt Xt w ∧ ∀ X X' n, Q X X' →
      (fruitTransform K (fruitFit K ρ f Xt Xt w).2 n f X' X').1 = (fruitTransform K (fruitFit K ρ f Xt Xt w).2 n f X X).1 := by
  obtain ⟨h1, h2⟩ := fitSlices_forgets (hS _ _ ht) (hc _ _ ht) hσ ρ ht (w.fruit f).slices w hs
  have hfit : fruitFit K ρ f Xt' Xt' w = fruitFit K ρ f Xt Xt w := by
    unfold fruitFit
    rw [h1]
  refine ⟨hfit, fun X X' n hX => ?_⟩
  have hk : KeepsPreps Keeps Removes w (fitSlices K ρ Xt Xt (w.fruit f).slices w).2 := h2
  generalize hw2 : (fruitFit K ρ f Xt Xt w).2 = w2
  have hw : w2.prep = (fitSlices K ρ Xt Xt (w.fruit f).slices w).2.prep ∧ w2.slice = (fitSlices K ρ Xt Xt (w.fruit f).slices w).2.slice ∧
      (w2.fruit f).slices = (w.fruit f).slices := by
    rw [← hw2]
    unfold fruitFit
    rcases hf : fitSlices K ρ Xt Xt (w.fruit f).slices w with ⟨e | u, w1⟩
    · rw [hf] at hk; exact ⟨rfl, rfl, by rw [hk.fruit]⟩
    · rw [hf] at hk; have := hk.fruit
      simp only at this
      exact ⟨rfl, rfl, by simp [World.setFruit, this]⟩
  rw [fruitTransform, fruitTransform, hQl X X' hX]
  by_cases hft : (w2.fruit f).fitted = true
  · rw [if_pos hft, if_pos hft]
    rcases fruitN K w2 f >>= zerosE K X.length with e | M
    · rfl
    simp only
    have hloop := slicesLoop_unit (K := K) (C := X) (C' := X') (w := w2) (w' := w2) (X := X) (X' := X') n (fun s => rfl) (w2.fruit f).slices M 0
      (fun s hsm => by
        rw [hw.2.2] at hsm
        refine sliceTransform_forgets (hS _ _ hX) (hc _ _ hX) ?_ hX n
        rw [hw.1, hw.2.1, hk.slice s]
        exact (hs s hsm).step hk)
    rcases ht : slicesLoop K w2 n X X (w2.fruit f).slices M 0 with ⟨r1, tr1⟩
    rcases ht' : slicesLoop K w2 n X' X' (w2.fruit f).slices M 0 with ⟨r2, tr2⟩
    rw [ht, ht'] at hloop
    simp only at hloop
    subst hloop
    rcases r2 <;> rfl
  · rw [if_neg hft, if_neg hft]

end generic

/-! ### The library's seeds -/

variable {R : Type} [Field R] [LinearOrder R] [IsStrictOrderedRing R] [FloorRing R]

theorem Prep.fit_offsetClass [NpMath R] (g : Rng R) (fuel : ℕ) : ∀ (p q : Prep R) (X : Data R), p.fit g fuel X = .ok (some q) →
    (p.KeepsOffset → q.KeepsOffset) ∧ (p.RemovesOffset → q.RemovesOffset) ∧ (p.KeepsSeriesOffset → q.KeepsSeriesOffset)
  | .dim p dims, q, X, h => by
    simp only [Prep.fit] at h
    rcases hs : selectDims dims X with e | sub
    · rw [hs] at h; cases h
    · rw [hs, ok_bind] at h
      rcases hr : p.fit g fuel sub with e | r
      · rw [hr] at h; cases h
      · rw [hr, ok_bind] at h
        cases r with
        | none => cases h
        | some p' =>
          cases h
          have ih := Prep.fit_offsetClass g fuel p p' sub hr
          exact ⟨fun hk => hk.imp ih.1 ih.2.1, id, id⟩
  | .new (some p), q, X, h => by
    simp only [Prep.fit] at h
    rcases hr : p.fit g fuel X with e | r
    · rw [hr] at h; cases h
    · rw [hr, ok_bind] at h
      cases r with
      | none => cases h
      | some p' =>
        cases h
        have ih := Prep.fit_offsetClass g fuel p p' X hr
        exact ⟨fun hk => hk.imp ih.1 ih.2.1, id, id⟩
  | .new none, q, X, h => by cases h; exact ⟨id, id, id⟩
  | .inc _, q, X, h => by cases h; exact ⟨id, id, id⟩
  | .nrm _, q, X, h => by cases h; exact ⟨id, id, id⟩
  | .lag, q, X, h => by cases h; exact ⟨id, id, id⟩
  | .cts _, q, X, h => by cases h; exact ⟨id, id, id⟩
  | .ffn _, q, X, h => by cases h; exact ⟨id, id, id⟩
  | .std p, q, X, h => by
    cases h
    refine ⟨id, fun hp => ?_, id⟩
    have hp : p.separately = true := hp
    show (p.fit X).separately = true
    unfold STD.fit
    rw [if_pos hp]; exact hp
  | .func f, q, X, _ => ⟨False.elim, False.elim, False.elim⟩
  | .win _, q, X, _ => ⟨False.elim, False.elim, False.elim⟩
  | .spe _, q, X, _ => ⟨False.elim, False.elim, False.elim⟩
  | .rpe _, q, X, _ => ⟨False.elim, False.elim, False.elim⟩
  | .mav _, q, X, _ => ⟨False.elim, False.elim, False.elim⟩
  | .dot _, q, X, _ => ⟨False.elim, False.elim, False.elim⟩
  | .rin _, q, X, _ => ⟨False.elim, False.elim, False.elim⟩
  | .rdw _, q, X, _ => ⟨False.elim, False.elim, False.elim⟩
  | .jld _, q, X, _ => ⟨False.elim, False.elim, False.elim⟩
  | .qtc _, q, X, _ => ⟨False.elim, False.elim, False.elim⟩
  | .dil _, q, X, _ => ⟨False.elim, False.elim, False.elim⟩
  | .pdd _, q, X, _ => ⟨False.elim, False.elim, False.elim⟩

theorem Prep.fit_nrm [NpMath R] (g : Rng R) (fuel : ℕ) {p q : Prep R} {X : Data R} (h : p.fit g fuel X = .ok (some q)) :
    p.RemovesSeriesOffset → q.RemovesSeriesOffset := by
  have h2 := (Prep.fit_offsetClass g fuel p q X h).2.1
  have hq : q.RemovesOffset → q.RemovesSeriesOffset := by cases q <;> first | exact id | exact fun _ => trivial
  cases p with
  | nrm b => cases h; exact id
  | _ => exact fun hp => hq (h2 hp)

theorem Lib.safeFit_fit [NpMath R] {L : Lib R} {g : Rng R} {p q : SafePrep R} {X : Data R} (h : L.safeFit g p X = .ok q) :
    p.1.fit g L.fuel X = .ok (some q.1) := by
  have h1 : L.prepFit g p.1 X = .ok q.1 := by
    have := Lib.safeFit_val L g p X
    rw [← this, h]; rfl
  unfold Lib.prepFit at h1
  rcases hr : p.1.fit g L.fuel X with e | r
  · rw [hr] at h1; cases h1
  rw [hr] at h1
  cases r with
  | none => cases h1
  | some p' =>
    simp only [Except.ok.injEq] at h1
    rw [h1]

theorem Lib.safeFit_congr [NpMath R] (L : Lib R) (g : Rng R) (p : SafePrep R) {X X' : Data R} (h : p.1.fit g L.fuel X' = p.1.fit g L.fuel X) :
    L.safeFit g p X' = L.safeFit g p X := by
  apply map_val_injective
  rw [Lib.safeFit_val, Lib.safeFit_val]
  unfold Lib.prepFit
  rw [h]

theorem builtin_offsets [NpMath R] (L : Lib R) (C C' : Data R) :
    (builtin L).Forgets C C' Offsets (fun p => p.1.KeepsOffset) (fun p => p.1.RemovesOffset) where
  fit := fun g p X X' hp h => L.safeFit_congr g p (C168_fit g L.fuel p.1 hp h)
  fitKeeps := fun g p q _ X h => by
    have := Prep.fit_offsetClass g L.fuel p.1 q.1 X (Lib.safeFit_fit (L := L) h)
    exact ⟨this.1, this.2.1⟩
  keeps := fun p X X' hp h => C168_keeps L.T p.1 hp h C C'
  removes := fun p X X' hp h => C168_removes L.T p.1 hp h C C'

theorem builtin_seriesOffsets [NpMath R] (L : Lib R) (C C' : Data R) :
    (builtin L).Forgets C C' SeriesOffsets (fun p => p.1.KeepsSeriesOffset) (fun p => p.1.RemovesSeriesOffset) where
  fit := fun g p X X' hp h => by
    refine L.safeFit_congr g p ?_
    obtain ⟨p, hpk⟩ := p
    dsimp only at hp ⊢
    cases p with
    | nrm b => rfl
    | lag => rfl
    | inc p => rfl
    | cts p => rfl
    | std p => exact C168_fit g L.fuel _ (Or.inr (hp.elim False.elim id)) h.offsets
    | ffn p => exact C168_fit g L.fuel _ (Or.inr (hp.elim False.elim id)) h.offsets
    | new o => cases o with
      | none => rfl
      | some o => exact (hp.elim False.elim False.elim : False).elim
    | _ => exact (hp.elim False.elim False.elim : False).elim
  fitKeeps := fun g p q _ X h =>
    ⟨(Prep.fit_offsetClass g L.fuel p.1 q.1 X (Lib.safeFit_fit (L := L) h)).2.2, Prep.fit_nrm g L.fuel (Lib.safeFit_fit (L := L) h)⟩
  keeps := fun p X X' hp h => C168_keeps_series L.T p.1 hp h C C'
  removes := fun p X X' hp h => C168_removes_series L.T p.1 hp h C C'

/-- A sample of data sets that are related series by series. -/
theorem selectSample_rel {A : Series R → Series R → Prop} (h0 : A [] []) (g : Rng R) (k : IntOrFloat R) {X X' : Data R} (h : List.Forall₂ A X X') :
    Outcome (List.Forall₂ A) (selectSample g k X) (selectSample g k X') := by
  have hl : X'.length = X.length := h.length_eq.symm
  unfold selectSample
  split
  · rw [hl]
    by_cases e : X.length = 0
    · rw [if_pos e, if_pos e]; exact .error _
    · rw [if_neg e, if_neg e]
      refine .ok ?_
      unfold slc
      rw [hl]
      exact List.forall₂_drop _ (List.forall₂_take _ h)
  · rw [hl]
    unfold chooseSample
    rw [hl]
    split
    · exact .error _
    · refine .ok ?_
      rw [List.forall₂_map_left_iff, List.forall₂_map_right_iff]
      exact List.forall₂_same.2 fun i _ => forall₂_getD_nil h0 h i

/-- **C168.** Let every slice of a fruit have a preparateur of `RemovesOffset` that comes first or after preparateurs of `KeepsOffset` only.  Then a
fit on data with a constant added to every dimension of every series (different constants are allowed) ends in exactly the same state or with the same
exception, and the features of data with constants added are exactly the features of the data. -/
theorem C168_fruit [NpMath R] (L : Lib R) (ρ : ℕ → Rng R) {w : World R (SafePrep R) (BIss R) (List (IWord R)) (SafeSieve R)} {f : ℕ}
    (hs : ∀ s ∈ (w.fruit f).slices, ∃ pre r post, (w.slice s).preps = pre ++ r :: post ∧ (∀ a ∈ pre, (w.prep a).1.KeepsOffset) ∧
      (w.prep r).1.RemovesOffset) {Xtrain Xtrain' : Data R} (ht : Offsets Xtrain Xtrain') :
    fruitFit (builtin L) ρ f Xtrain' Xtrain' w = fruitFit (builtin L) ρ f Xtrain Xtrain w ∧
    ∀ X X' n, Offsets X X' → (fruitTransform (builtin L) (fruitFit (builtin L) ρ f Xtrain Xtrain w).2 n f X' X').1 =
      (fruitTransform (builtin L) (fruitFit (builtin L) ρ f Xtrain Xtrain w).2 n f X X).1 :=
  fruit_forgets (Q := Offsets) (fun _ _ h => Offsets.length h) (fun g k _ _ h => selectSample_rel .nil g k h) ρ
    (fun _ _ h => builtin_sameSums L (Offsets.sameNormSums h))
    (fun C C' _ => builtin_offsets L C C') hs ht

/-- **C168 (constants per series).** The same with one constant for all dimensions of a series; then the slices may also use `NRM(scale_dim=True)`. -/
theorem C168_fruit_series [NpMath R] (L : Lib R) (ρ : ℕ → Rng R) {w : World R (SafePrep R) (BIss R) (List (IWord R)) (SafeSieve R)} {f : ℕ}
    (hs : ∀ s ∈ (w.fruit f).slices, ∃ pre r post, (w.slice s).preps = pre ++ r :: post ∧ (∀ a ∈ pre, (w.prep a).1.KeepsSeriesOffset) ∧
      (w.prep r).1.RemovesSeriesOffset) {Xtrain Xtrain' : Data R} (ht : SeriesOffsets Xtrain Xtrain') :
    fruitFit (builtin L) ρ f Xtrain' Xtrain' w = fruitFit (builtin L) ρ f Xtrain Xtrain w ∧
    ∀ X X' n, SeriesOffsets X X' → (fruitTransform (builtin L) (fruitFit (builtin L) ρ f Xtrain Xtrain w).2 n f X' X').1 =
      (fruitTransform (builtin L) (fruitFit (builtin L) ρ f Xtrain Xtrain w).2 n f X X).1 :=
  fruit_forgets (Q := SeriesOffsets) (fun _ _ h => (SeriesOffsets.offsets h).length) (fun g k _ _ h => selectSample_rel ⟨0, rfl⟩ g k h) ρ
    (fun _ _ h => builtin_sameSums L (SeriesOffsets.offsets h).sameNormSums)
    (fun C C' _ => builtin_seriesOffsets L C C') hs ht

end Fruits
