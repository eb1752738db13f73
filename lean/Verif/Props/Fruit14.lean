import Verif.Props.Builtin2

/-! # The cache in `fit` (property C85) -/

namespace Fruits
set_option linter.unusedSectionVars false

variable {R P I W S V : Type} [Field R] [LinearOrder R] [FloorRing R]

/-- Sets of preparateurs and ISS objects that do not look at the cached per-series data, neither in `fit` nor in `transform`;
`fit` does not lead out of the sets.  Sieves do not look at it in `fit`. -/
structure Sem.CacheFree (K : Sem R P I W S V) (QP : P → Prop) (QI : I → Prop) : Prop where
  prepFit : ∀ g p C C' X, QP p → K.prepFit g p C X = K.prepFit g p C' X
  prepKeep : ∀ g p C X p', QP p → K.prepFit g p C X = .ok p' → QP p'
  prepTransform : ∀ p C C' X, QP p → K.prepTransform p C X = K.prepTransform p C' X
  issFit : ∀ g i ws C C' X, QI i → K.issFit g i ws C X = K.issFit g i ws C' X
  issKeep : ∀ g i ws C X i', QI i → K.issFit g i ws C X = .ok i' → QI i'
  issGen : ∀ i ws C C' X, QI i → K.issGen i ws C X = K.issGen i ws C' X
  sieveFit : ∀ g v C C' X, K.sieveFit g v C X = K.sieveFit g v C' X

variable {K : Sem R P I W S V} {QP : P → Prop} {QI : I → Prop}

theorem fitPreps_free (hK : K.CacheFree QP QI) (ρ : ℕ → Rng R) (C C' : Data R) : ∀ (as : List ℕ) (X : Data R) (w : World R P I W S),
    (∀ a ∈ as, QP (w.prep a)) → fitPreps K ρ C as X w = fitPreps K ρ C' as X w
  | [], _, _, _ => rfl
  | a :: as, X, w, h => by
    have ha := h a (List.mem_cons_self ..)
    rw [fitPreps, fitPreps, hK.prepFit (ρ w.rnd) (w.prep a) C C' X ha]
    rcases hp : K.prepFit (ρ w.rnd) (w.prep a) C' X with e | p
    · rfl
    · have hq := hK.prepKeep _ _ _ _ _ ha hp
      simp only
      rw [hK.prepTransform p C C' X hq]
      rcases K.prepTransform p C' X with e | Y
      · rfl
      · refine fitPreps_free hK ρ C C' as Y _ fun b hb => ?_
        show QP (Function.update w.prep a p b)
        by_cases hba : b = a
        · subst hba; rw [Function.update_self]; exact hq
        · rw [Function.update_of_ne hba]; exact h b (List.mem_cons_of_mem _ hb)

theorem fitIss_free (hK : K.CacheFree QP QI) (ρ : ℕ → Rng R) (C C' X : Data R) : ∀ (as : List ℕ) (w : World R P I W S),
    (∀ a, a ∈ as → QI (w.iss a).1) → fitIss K ρ C X as w = fitIss K ρ C' X as w
  | [], _, _ => rfl
  | a :: as, w, h => by
    have ha := h a (List.mem_cons_self ..)
    rw [fitIss, fitIss]
    by_cases hr : K.issRequires (w.issAt a).1 = true
    · rw [if_pos hr, if_pos hr, hK.issFit (ρ w.rnd) (w.issAt a).1 (w.issAt a).2 C C' X ha]
      rcases hp : K.issFit (ρ w.rnd) (w.issAt a).1 (w.issAt a).2 C' X with e | i
      · rfl
      · refine fitIss_free hK ρ C C' X as _ fun b hb => ?_
        show QI (Function.update w.iss a (i, (w.iss a).2) b).1
        by_cases hba : b = a
        · subst hba; rw [Function.update_self]; exact hK.issKeep _ _ _ _ _ _ ha hp
        · rw [Function.update_of_ne hba]; exact h b (List.mem_cons_of_mem _ hb)
    · rw [if_neg hr, if_neg hr]
      exact fitIss_free hK ρ C C' X as w fun b hb => h b (List.mem_cons_of_mem _ hb)

theorem iterateIss_free (hK : K.CacheFree QP QI) (C C' : Data R) : ∀ (is : List (I × W)) (X : Data R), (∀ i ∈ is, QI i.1) →
    iterateIss K C is X = iterateIss K C' is X
  | [], _, _ => rfl
  | i :: is, X, h => by
    rw [iterateIss, iterateIss, hK.issGen i.1 i.2 C C' X (h i (List.mem_cons_self ..))]
    congr 1
    funext it
    exact iterateIss_free hK C C' is _ fun j hj => h j (List.mem_cons_of_mem _ hj)

theorem fitSieves_free (hK : K.CacheFree QP QI) (ρ : ℕ → Rng R) (C C' : Data R) (it : List (List R)) : ∀ (ss : List S) (r : ℕ),
    fitSieves K ρ C it ss r = fitSieves K ρ C' it ss r
  | [], _ => rfl
  | s :: ss, r => by
    rw [fitSieves, fitSieves, hK.sieveFit (ρ r) s C C' it]
    rcases K.sieveFit (ρ r) s C' it with e | s'
    · rfl
    · simp only
      rw [fitSieves_free hK ρ C C' it ss (r + 1)]

theorem fitItems_free (hK : K.CacheFree QP QI) (ρ : ℕ → Rng R) (C C' : Data R) (sv : List S) : ∀ (its : List (List (List R)))
    (e : Option Err) (r : ℕ), fitItems K ρ C sv its e r = fitItems K ρ C' sv its e r
  | [], _, _ => rfl
  | it :: its, e, r => by
    rw [fitItems, fitItems]
    rcases sv.mapM K.sieveCopy with e' | cs
    · rfl
    · simp only
      rw [fitSieves_free hK ρ C C' it cs r]
      rcases fitSieves K ρ C' it cs r with ⟨e' | row, r'⟩
      · rfl
      · simp only
        rw [fitItems_free hK ρ C C' sv its e r']

theorem fitFinish_free (hK : K.CacheFree QP QI) (ρ : ℕ → Rng R) (s : ℕ) (C C' X : Data R) (w : World R P I W S)
    (hi : ∀ a ∈ (w.slice s).iss, QI (w.iss a).1) : fitFinish K ρ s C X w = fitFinish K ρ s C' X w := by
  rw [fitFinish, fitFinish, iterateIss_free hK C C' ((w.slice s).iss.map w.issAt) X (by
    intro i hmem
    obtain ⟨a, ha, rfl⟩ := List.mem_map.1 hmem
    exact hi a ha), fitItems_free hK ρ C C']

theorem fitPreps_iss (K : Sem R P I W S V) (ρ : ℕ → Rng R) (C : Data R) : ∀ (as : List ℕ) (X : Data R) (w : World R P I W S),
    (fitPreps K ρ C as X w).2.iss = w.iss
  | [], _, _ => rfl
  | a :: as, X, w => by
    rw [fitPreps]
    rcases K.prepFit (ρ w.rnd) (w.prep a) C X with e | p
    · rfl
    · rcases h : K.prepTransform p C X with e | Y
      · simp only [h]; rfl
      · simp only [h]; exact fitPreps_iss K ρ C as Y _

theorem fitIss_keeps (hK : K.CacheFree QP QI) (ρ : ℕ → Rng R) (C X : Data R) : ∀ (as : List ℕ) (w : World R P I W S) (is : List ℕ),
    (∀ a ∈ is, QI (w.iss a).1) → ∀ a ∈ is, QI ((fitIss K ρ C X as w).2.iss a).1
  | [], w, is, h => h
  | b :: as, w, is, h => by
    rw [fitIss]
    by_cases hr : K.issRequires (w.issAt b).1 = true
    · rw [if_pos hr]
      rcases hp : K.issFit (ρ w.rnd) (w.issAt b).1 (w.issAt b).2 C X with e | i
      · exact h
      · refine fitIss_keeps hK ρ C X as _ is fun a ha => ?_
        show QI (Function.update w.iss b (i, (w.iss b).2) a).1
        by_cases hba : a = b
        · subst hba; rw [Function.update_self]; exact hK.issKeep _ _ _ _ _ _ (h a ha) hp
        · rw [Function.update_of_ne hba]; exact h a ha
    · rw [if_neg hr]
      exact fitIss_keeps hK ρ C X as w is h

/-- **C85**, the part that holds: `fit` of a slice whose preparateurs and ISS objects do not look at cached per-series data
(everything except `WIN`, `SPE` with `step_transform`, and L1/L2 weightings of the raw data) does not depend on the cache, so it
does not matter that the cache belongs to all series and not to the sampled ones. -/
theorem C85_partial (hK : K.CacheFree QP QI) (ρ : ℕ → Rng R) (s : ℕ) (C C' X : Data R) (w : World R P I W S)
    (hp : ∀ a ∈ (w.slice s).preps, QP (w.prep a)) (hi : ∀ a ∈ (w.slice s).iss, QI (w.iss a).1) :
    sliceFit K ρ s C X w = sliceFit K ρ s C' X w := by
  rw [sliceFit, sliceFit]
  by_cases h1 : (w.slice s).iss = []
  · rw [if_pos h1, if_pos h1]
  rw [if_neg h1, if_neg h1]
  by_cases h2 : (w.slice s).sieves = []
  · rw [if_pos h2, if_pos h2]
  rw [if_neg h2, if_neg h2]
  rcases selectSample (ρ w.rnd) (w.slice s).sample X with e | D
  · rfl
  simp only
  rw [fitPreps_free hK ρ C C' (w.slice s).preps D w.tick hp]
  have e1 := fitPreps_iss K ρ C' (w.slice s).preps D w.tick
  have e2 := fitPreps_slice K ρ C' (w.slice s).preps D w.tick
  rcases hm : fitPreps K ρ C' (w.slice s).preps D w.tick with ⟨e | Y, w1⟩
  · rfl
  rw [hm] at e1 e2
  simp only at e1 e2 ⊢
  have hi1 : ∀ a ∈ (w.slice s).iss, QI (w1.iss a).1 := by rw [e1]; exact hi
  rw [fitIss_free hK ρ C C' Y (w.slice s).iss w1 hi1]
  have e3 := fitIss_keeps hK ρ C' Y (w.slice s).iss w1 _ hi1
  have e4 := fitIss_slice K ρ C' Y (w.slice s).iss w1
  rcases hm2 : fitIss K ρ C' Y (w.slice s).iss w1 with ⟨e | u, w2⟩
  · rfl
  rw [hm2] at e3 e4
  simp only at e3 e4 ⊢
  exact fitFinish_free hK ρ s C C' Y w2 (by rw [e4, e2]; exact e3)

/-! ### The library -/

/-- The preparateurs that do not look at the cache: all but `WIN` and `SPE(step_transform=…)`.  (Wrapped preparateurs make a
cache of their own from the data they get, so they are always consistent.) -/
def Prep.cacheFree : Prep R → Prop
  | .win _ => False
  | .spe p => p.step = none
  | _ => True

/-- The ISS objects that do not look at the cache: those without an L1/L2 weighting of the raw data. -/
def BIss.cacheFree : BIss R → Prop
  | .iss o => ∀ k, o.weighting = some k → match k.2 with
    | .norm _ onPrepared _ _ _ => onPrepared = true
    | _ => True
  | .cos _ => True

theorem Prep.fit_cacheFree [NpMath R] (g : Rng R) (fuel : ℕ) : ∀ (p q : Prep R) (X : Data R), p.fit g fuel X = .ok (some q) →
    p.cacheFree → q.cacheFree
  | .dim p dims, q, X, h, _ => by
    simp only [Prep.fit] at h
    rcases hs : selectDims dims X with e | sub
    · rw [hs] at h; cases h
    · rw [hs, ok_bind] at h
      rcases hr : p.fit g fuel sub with e | r
      · rw [hr] at h; cases h
      · rw [hr, ok_bind] at h
        cases r with
        | none => cases h
        | some p' => cases h; trivial
  | .new (some p), q, X, h, _ => by
    simp only [Prep.fit] at h
    rcases hr : p.fit g fuel X with e | r
    · rw [hr] at h; cases h
    · rw [hr, ok_bind] at h
      cases r with
      | none => cases h
      | some p' => cases h; trivial
  | .new none, q, X, h, _ => by cases h; trivial
  | .func f, q, X, h, _ => by cases h; trivial
  | .inc _, q, X, h, _ => by cases h; trivial
  | .nrm _, q, X, h, _ => by cases h; trivial
  | .lag, q, X, h, _ => by cases h; trivial
  | .win _, q, X, h, hp => by cases hp
  | .spe _, q, X, h, hp => by cases h; exact hp
  | .rpe _, q, X, h, _ => by cases h; trivial
  | .cts _, q, X, h, _ => by cases h; trivial
  | .std _, q, X, h, _ => by cases h; trivial
  | .mav _, q, X, h, _ => by cases h; trivial
  | .ffn _, q, X, h, _ => by cases h; trivial
  | .dot _, q, X, h, _ => by cases h; trivial
  | .rin p, q, X, h, _ => by
    simp only [Prep.fit] at h
    rcases hr : p.fit g fuel X with e | r
    · rw [hr] at h; cases h
    · rw [hr, ok_bind] at h
      cases r with
      | none => cases h
      | some p' => cases h; trivial
  | .rdw p, q, X, h, _ => by
    simp only [Prep.fit] at h
    rcases hr : p.fit g X with e | r
    · rw [hr] at h; cases h
    · rw [hr, ok_bind] at h; cases h; trivial
  | .jld p, q, X, h, _ => by
    simp only [Prep.fit] at h
    rcases hr : p.fit g X with e | r
    · rw [hr] at h; cases h
    · rw [hr, ok_bind] at h; cases h; trivial
  | .qtc p, q, X, h, _ => by
    simp only [Prep.fit] at h
    rcases hr : p.fit X with e | r
    · rw [hr] at h; cases h
    · rw [hr, ok_bind] at h; cases h; trivial
  | .dil p, q, X, h, _ => by
    simp only [Prep.fit] at h
    rcases hr : p.fit g X with e | r
    · rw [hr] at h; cases h
    · rw [hr, ok_bind] at h; cases h; trivial
  | .pdd p, q, X, h, _ => by
    simp only [Prep.fit] at h
    rcases hr : p.fit X with e | r
    · rw [hr] at h; cases h
    · rw [hr, ok_bind] at h; cases h; trivial

theorem Prep.transformC_free [NpMath R] (T : FloatText R) (C C' : Data R) (p : Prep R) (X : Data R) (h : p.cacheFree) :
    p.transformC T C X = p.transformC T C' X := by
  cases p with
  | win p => cases h
  | spe p =>
    change p.step = none at h
    simp only [Prep.transformC, SPE.transform, h]
  | new p => cases p <;> simp only [Prep.transformC]
  | _ => simp only [Prep.transformC]

theorem weightingFor_free (T : FloatText R) (C C' X : Data R) (o : ISSObj R) (hk : (BIss.iss o).cacheFree) (word : IWord R) :
    weightingFor T C X o word = weightingFor T C' X o word := by
  cases word with
  | general w => rfl
  | simple w =>
    simp only [weightingFor]
    rcases hw : o.weighting with _ | ⟨b, k⟩
    · rfl
    · have := hk _ hw
      simp only [lookupFor]
      cases k with
      | norm nm onP rel f sc =>
        change onP = true at this
        subst this
        rfl
      | _ => rfl

theorem yieldWords_congr {f f' : ℕ → Except Err (Data R)} : ∀ l : List ℕ, (∀ i, f i = f' i) → yieldWords f l = yieldWords f' l
  | [], _ => rfl
  | i :: is, h => by rw [yieldWords, yieldWords, h i, yieldWords_congr is h]

/-- What the library's seeds look at. -/
theorem builtin_cacheFree [NpMath R] (L : Lib R) : (builtin L).CacheFree (fun p => p.1.cacheFree) BIss.cacheFree where
  prepFit := fun _ _ _ _ _ _ => rfl
  prepKeep := fun g p _ X p' hp h => by
    have h1 : L.prepFit g p.1 X = .ok p'.1 := by
      have := Lib.safeFit_val L g p X
      rw [← this, show L.safeFit g p X = .ok p' from h]; rfl
    unfold Lib.prepFit at h1
    rcases hr : p.1.fit g L.fuel X with e | r
    · rw [hr] at h1; cases h1
    rw [hr] at h1
    cases r with
    | none => cases h1
    | some q =>
      simp only [Except.ok.injEq] at h1
      rw [h1] at hr
      exact Prep.fit_cacheFree g L.fuel p.1 p'.1 X hr hp
  prepTransform := fun p C C' X hp => Prep.transformC_free L.T C C' p.1 X hp
  issFit := fun _ _ _ _ _ _ _ => rfl
  issKeep := fun g i ws _ X i' hq h => by
    change BIss.fit g i ws X = .ok i' at h
    cases i with
    | iss o => cases h; exact hq
    | cos c =>
      simp only [BIss.fit] at h
      rcases hs : simpleWords ws with e | sw
      · rw [hs] at h; cases h
      rw [hs, ok_bind] at h
      rcases hc : c.fit g sw X with e | c'
      · rw [hc] at h; cases h
      rw [hc, ok_bind] at h
      cases h
      trivial
  issGen := fun i ws C C' X hq => by
    change BIss.gen L i ws C X = BIss.gen L i ws C' X
    cases i with
    | cos c => rfl
    | iss o =>
      simp only [BIss.gen]
      congr 1
      refine yieldWords_congr _ fun i => ?_
      simp only [ISSObj.wordSums]
      cases ws[i]? with
      | none => rfl
      | some word => simp only [weightingFor_free L.T C C' X o hq word]
  sieveFit := fun _ _ _ _ _ => rfl

end Fruits
