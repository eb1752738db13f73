import Verif.Props.Fruit11

/-! # Refitting a fruit (property C77) and independence of slices (property C86) -/

namespace Fruits
set_option linter.unusedSectionVars false

variable {R P I W S V : Type} [Field R] [LinearOrder R] [FloorRing R]

theorem ExtInv.steps {K : Sem R P I W S V} (hN : K.KeepsN) {B : Ref → Prop} {A : Touch → Prop} {w w' : World R P I W S}
    (h : Steps K B A w w') (hw : w.WF) (hi : ExtInv K w) : ExtInv K w' :=
  (h.invariant (Inv := fun v => v.WF ∧ ExtInv K v) (fun _ _ _ _ hm hv => ⟨hm.wf hv.1, ExtInv.micro hN hm hv.1 hv.2⟩) ⟨hw, hi⟩).2

/-- The seeds of the slice are in the lists, the slice exists and has the same configuration in both worlds. -/
structure FitPair (ps is sv : List ℕ) (w w' : World R P I W S) (s : ℕ) : Prop where
  lt : s < w.nSlice
  lt' : s < w'.nSlice
  conf : (w.slice s).SameConf (w'.slice s)
  preps : ∀ a ∈ (w.slice s).preps, a ∈ ps
  iss : ∀ a ∈ (w.slice s).iss, a ∈ is
  sieves : ∀ a ∈ (w.slice s).sieves, a ∈ sv

/-- What the two worlds have in common while a fruit is fitted in both. -/
structure FitWorlds (K : Sem R P I W S V) (ps is sv : List ℕ) (w w' : World R P I W S) : Prop where
  wf : w.WF
  wf' : w'.WF
  ext : ExtInv K w
  ext' : ExtInv K w'
  same : RefitSame K ps is sv w w'
  preps : ∀ a ∈ ps, a < w.nPrep ∧ a < w'.nPrep
  iss : ∀ a ∈ is, a < w.nIss ∧ a < w'.nIss
  sieves : ∀ a ∈ sv, a < w.nSieve ∧ a < w'.nSieve

theorem not_edit_fit (w : World R P I W S) (s : ℕ) (is : List ℕ) :
    ∀ a ∈ is, ¬ FitTouch w s (.edit a) ∧ ¬ FitTouch w s (.words (w.iss a).2) := fun _ _ => ⟨fun h => h, fun h => h⟩

theorem FitWorlds.fit {K : Sem R P I W S V} (hN : K.KeepsN) (hR : K.Refits) {ps is sv : List ℕ} {w w' : World R P I W S}
    (h : FitWorlds K ps is sv w w') (ρ ρ' : ℕ → Rng R) (s : ℕ) (C X : Data R) :
    FitWorlds K ps is sv (sliceFit K ρ s C X w).2 (sliceFit K ρ' s C X w').2 := by
  have h1 := sliceFit_steps K (B := fun _ => True) ρ s C X w
  have h2 := sliceFit_steps K (B := fun _ => True) ρ' s C X w'
  have r1 : RefitSame K ps is sv w (sliceFit K ρ s C X w).2 := h1.refitSame hR hN (fun a ha => (h.preps a ha).1)
    (fun a ha => (h.iss a ha).1) (fun a ha => h.wf.words a (h.iss a ha).1) (fun a ha => (h.sieves a ha).1) (not_edit_fit w s is)
  have r2 : RefitSame K ps is sv w' (sliceFit K ρ' s C X w').2 := h2.refitSame hR hN (fun a ha => (h.preps a ha).2)
    (fun a ha => (h.iss a ha).2) (fun a ha => h.wf'.words a (h.iss a ha).2) (fun a ha => (h.sieves a ha).2) (not_edit_fit w' s is)
  exact ⟨h1.wf h.wf, h2.wf h.wf', ExtInv.steps hN h1 h.wf h.ext, ExtInv.steps hN h2 h.wf' h.ext',
    (r1.symm'.trans' h.same).trans' r2,
    fun a ha => ⟨(h.preps a ha).1.trans_le h1.grows.prep, (h.preps a ha).2.trans_le h2.grows.prep⟩,
    fun a ha => ⟨(h.iss a ha).1.trans_le h1.grows.iss, (h.iss a ha).2.trans_le h2.grows.iss⟩,
    fun a ha => ⟨(h.sieves a ha).1.trans_le h1.grows.sieve, (h.sieves a ha).2.trans_le h2.grows.sieve⟩⟩

theorem FitPair.fit {K : Sem R P I W S V} {ps is sv : List ℕ} {w w' : World R P I W S} {t : ℕ}
    (h : FitPair ps is sv w w' t) (ρ ρ' : ℕ → Rng R) (s : ℕ) (C X : Data R) :
    FitPair ps is sv (sliceFit K ρ s C X w).2 (sliceFit K ρ' s C X w').2 t := by
  have h1 := sliceFit_steps K (B := fun _ => True) ρ s C X w
  have h2 := sliceFit_steps K (B := fun _ => True) ρ' s C X w'
  have c1 := h1.conf h.lt fun h => h
  have c2 := h2.conf h.lt' fun h => h
  obtain ⟨x1, x2, x3, x4⟩ := c1
  obtain ⟨y1, y2, y3, y4⟩ := c2
  obtain ⟨z1, z2, z3, z4⟩ := h.conf
  refine ⟨h.lt.trans_le h1.grows.slice, h.lt'.trans_le h2.grows.slice, ⟨?_, ?_, ?_, ?_⟩, ?_, ?_, ?_⟩
  · rw [x1, y1, z1]
  · rw [x2, y2, z2]
  · rw [x3, y3, z3]
  · rw [x4, y4, z4]
  · rw [x1]; exact h.preps
  · rw [x2]; exact h.iss
  · rw [x3]; exact h.sieves

theorem fitSlices_alike {K : Sem R P I W S V} (hN : K.KeepsN) (hR : K.Refits) {ρ ρ' : ℕ → Rng R} {ps is sv : List ℕ} {C X : Data R} :
    ∀ (ss : List ℕ) (w w' : World R P I W S), FitWorlds K ps is sv w w' → Aligned ρ ρ' w w' →
    (∀ s ∈ ss, FitPair ps is sv w w' s) →
    (fitSlices K ρ' C X ss w').1 = (fitSlices K ρ C X ss w).1 ∧
    ((fitSlices K ρ C X ss w).1 = .ok () → ∀ t, FitPair ps is sv w w' t → (t ∈ ss ∨ SameFeatures K w w' t) →
      SameFeatures K (fitSlices K ρ C X ss w).2 (fitSlices K ρ' C X ss w').2 t)
  | [], w, w', _, _, _ => ⟨rfl, fun _ t _ ht => ht.resolve_left (by simp)⟩
  | s :: ss, w, w', hw, hal, hp => by
    have hps := hp s (List.mem_cons_self ..)
    have hA : Alike K w w' s := (hw.same.mono hps.preps hps.iss hps.sieves).alike hps.conf
    have e1 := (hw.ext s hps.lt).1
    have e2 := (hw.ext' s hps.lt').1
    obtain ⟨a1, a2⟩ := sliceFit_alike hA hal e1 e2 C X
    have hgood := fit_alike hA hal e1 e2 C X
    have hw1 := hw.fit hN hR ρ ρ' s C X
    have hp1 := fun t (ht : FitPair ps is sv w w' t) => FitPair.fit (K := K) ht ρ ρ' s C X
    have st1 := sliceFit_steps K (B := fun _ => True) ρ s C X w
    have st2 := sliceFit_steps K (B := fun _ => True) ρ' s C X w'
    have r1 : RefitSame K ps is sv w (sliceFit K ρ s C X w).2 := st1.refitSame hR hN (fun a ha => (hw.preps a ha).1)
      (fun a ha => (hw.iss a ha).1) (fun a ha => hw.wf.words a (hw.iss a ha).1) (fun a ha => (hw.sieves a ha).1) (not_edit_fit w s is)
    rw [fitSlices, fitSlices]
    rcases hm : sliceFit K ρ s C X w with ⟨e | x, u⟩
    · rcases hm' : sliceFit K ρ' s C X w' with ⟨r, u'⟩
      rw [hm, hm'] at a1
      simp only at a1
      subst a1
      exact ⟨rfl, fun h => by simp at h⟩
    rcases hm' : sliceFit K ρ' s C X w' with ⟨r, u'⟩
    rw [hm, hm'] at a1 a2 hgood hw1 
    rw [hm] at st1 r1
    rw [hm'] at st2
    simp only at a1 a2 hgood hw1 st1 st2 r1
    subst a1
    have hp1 : ∀ t, FitPair ps is sv w w' t → FitPair ps is sv u u' t := by
      intro t ht; have := hp1 t ht; rw [hm, hm'] at this; exact this
    obtain ⟨b1, b2, b3, b4, b4', b5, b6, b7, b8, b9⟩ := a2 trivial
    simp only
    obtain ⟨i1, i2⟩ := fitSlices_alike hN hR (C := C) (X := X) (ρ := ρ) (ρ' := ρ') ss u u' hw1 b7
      (fun t ht => hp1 t (hp t (List.mem_cons_of_mem _ ht)))
    refine ⟨i1, fun hok t hpt ht => i2 hok t (hp1 t hpt) ?_⟩
    by_cases hts : t = s
    · right; subst hts; exact hgood trivial
    · rcases ht with ht | ht
      · exact Or.inl ((List.mem_cons.1 ht).resolve_left hts)
      right
      have q1 : u.slice t = w.slice t := st1.slice_eq hpt.lt (fun h => h) hts
      have q2 : u'.slice t = w'.slice t := st2.slice_eq hpt.lt' (fun h => h) hts
      refine ⟨by rw [q1, q2, ht.slice], fun a ha => ?_, fun a ha => ?_, fun a ha => ?_, fun hx => ?_⟩
      · rw [q1] at ha; exact b8 a (ht.preps a ha)
      · rw [q1] at ha; exact b9 a (ht.iss a ha)
      · rw [q1] at ha; rw [b4, b4']; exact ht.num a ha
      · rw [q1] at hx ⊢
        rw [b4, b4']
        rcases ht.trans hx with h | ⟨C₀, Y, is₀, h, h'⟩
        · exact Or.inl h
        · refine Or.inr ⟨C₀, Y, is₀, h, h'.trans ?_⟩
          rw [List.map_map, List.map_map]
          apply List.map_congr_left
          intro a ha
          have hai := hpt.iss a ha
          show K.issCount (w.iss a).1 (w.words (w.iss a).2) = K.issCount (u.iss a).1 (u.words (u.iss a).2)
          rw [r1.count a hai, r1.addr a hai, r1.words a hai]

/-- **C77.**  Take the world after any history and let anything happen to the fruit, its slices and their seeds: they are
fitted, slices and seeds are added and cleared, as long as the fruit consists of the same slices and the slices of the same
seeds again and no settings or words of their ISS objects are edited.  A new `fit` with the same random numbers then has the
same outcome as if nothing had happened, and all features computed after it are the same. -/
theorem C77_refit {K : Sem R P I W S V} (hC : K.CountsRight) (hN : K.KeepsN) (hR : K.Refits) {ρ : ℕ → Rng R}
    {w₀ w w₁ : World R P I W S} {ops later : List (Op R P I W S)} (h0 : w₀.Empty) (before : Hist K ρ w₀ ops w)
    (after : Hist K ρ w later w₁) {f : ℕ} (hf : f < w.nFruit) (hsl : (w₁.fruit f).slices = (w.fruit f).slices)
    (hconf : ∀ s ∈ (w.fruit f).slices, (w.slice s).SameConf (w₁.slice s))
    (hedit : ∀ o ∈ later, ∀ s ∈ (w.fruit f).slices, ¬ o.Edits w (w.slice s).iss) {ρ₁ ρ₂ : ℕ → Rng R}
    (hdraw : ∀ k, ρ₂ (w₁.rnd + k) = ρ₁ (w.rnd + k)) (C X : Data R) :
    (fruitFit K ρ₂ f C X w₁).1 = (fruitFit K ρ₁ f C X w).1 ∧
    ((fruitFit K ρ₁ f C X w).1 = .ok () → ∀ (n : ℕ) (C' X' : Data R) (A : List (List V)) (tr : Trace R V),
      fruitTransform K (fruitFit K ρ₂ f C X w₁).2 n f C' X' = (.ok A, tr) ↔
      fruitTransform K (fruitFit K ρ₁ f C X w).2 n f C' X' = (.ok A, tr)) := by
  have hwf := before.wf (World.WF.empty h0)
  set SL := (w.fruit f).slices with hSL
  have hlt : ∀ s ∈ SL, s < w.nSlice := hwf.slices f hf
  set ps := SL.flatMap fun s => (w.slice s).preps
  set is := SL.flatMap fun s => (w.slice s).iss with his
  set sv := SL.flatMap fun s => (w.slice s).sieves
  have hps : ∀ a ∈ ps, a < w.nPrep := fun a ha => by
    obtain ⟨s, hs, ha⟩ := List.mem_flatMap.1 ha; exact hwf.preps s (hlt s hs) a ha
  have his' : ∀ a ∈ is, a < w.nIss := fun a ha => by
    obtain ⟨s, hs, ha⟩ := List.mem_flatMap.1 ha; exact hwf.iss s (hlt s hs) a ha
  have hsv : ∀ a ∈ sv, a < w.nSieve := fun a ha => by
    obtain ⟨s, hs, ha⟩ := List.mem_flatMap.1 ha; exact hwf.sieves s (hlt s hs) a ha
  have hed : ∀ o ∈ later, ¬ o.Edits w is := by
    intro o ho he
    cases o with
    | editIss a i =>
      obtain ⟨s, hs, ha⟩ := List.mem_flatMap.1 (show a ∈ is from he)
      exact hedit _ ho s hs ha
    | editWords b ws =>
      obtain ⟨a, ha, hb⟩ := he
      obtain ⟨s, hs, ha⟩ := List.mem_flatMap.1 ha
      exact hedit _ ho s hs ⟨a, ha, hb⟩
    | _ => exact he
  obtain ⟨hsame, hg⟩ := after.refitSame hR hN hwf hps his' hsv hed
  have hW : FitWorlds K ps is sv w w₁ := ⟨hwf, after.wf hwf, ExtInv.hist hN before h0, ExtInv.hist hN (before.append after) h0, hsame,
    fun a ha => ⟨hps a ha, (hps a ha).trans_le hg.prep⟩, fun a ha => ⟨his' a ha, (his' a ha).trans_le hg.iss⟩,
    fun a ha => ⟨hsv a ha, (hsv a ha).trans_le hg.sieve⟩⟩
  have hP : ∀ s ∈ SL, FitPair ps is sv w w₁ s := fun s hs => ⟨hlt s hs, (hlt s hs).trans_le hg.slice, hconf s hs,
    fun a ha => List.mem_flatMap.2 ⟨s, hs, ha⟩, fun a ha => List.mem_flatMap.2 ⟨s, hs, ha⟩, fun a ha => List.mem_flatMap.2 ⟨s, hs, ha⟩⟩
  obtain ⟨i1, i2⟩ := fitSlices_alike hN hR (ρ := ρ₁) (ρ' := ρ₂) (C := C) (X := X) SL w w₁ hW hdraw hP
  have st1 := fitSlices_steps K (B := fun _ => True) ρ₁ C X SL w hlt
  have st2 := fitSlices_steps K (B := fun _ => True) ρ₂ C X SL w₁ fun s hs => (hlt s hs).trans_le hg.slice
  have nf : ∀ v : World R P I W S, ¬ (Touch.fruit f = .none ∨ ∃ s ∈ SL, FitTouch v s (.fruit f)) := by
    rintro v (h | ⟨s, _, h⟩)
    · cases h
    · exact h
  have f1 := st1.fruit_eq hf (nf w)
  have f2 := st2.fruit_eq (hf.trans_le hg.fruit) (nf w₁)
  rw [fruitFit, fruitFit, hsl]
  rcases hm : fitSlices K ρ₁ C X SL w with ⟨e | x, u⟩
  · rcases hm' : fitSlices K ρ₂ C X SL w₁ with ⟨r, u'⟩
    rw [hm, hm'] at i1
    simp only at i1
    subst i1
    exact ⟨rfl, fun h => by simp at h⟩
  rcases hm' : fitSlices K ρ₂ C X SL w₁ with ⟨r, u'⟩
  rw [hm, hm'] at i1 i2
  rw [hm] at f1
  rw [hm'] at f2
  simp only at i1 i2 f1 f2
  subst i1
  refine ⟨rfl, fun _ n C' X' A tr => ?_⟩
  simp only
  have hsf : ∀ s ∈ SL, SameFeatures K (u.setFruit f { u.fruit f with fitted := true })
      (u'.setFruit f { u'.fruit f with fitted := true }) s := fun s hs => by
    have := i2 trivial s (hP s hs) (Or.inl hs)
    exact ⟨this.slice, this.preps, this.iss, this.num, this.trans⟩
  have g1 : ((u'.setFruit f { u'.fruit f with fitted := true }).fruit f).slices = SL := by
    show (Function.update u'.fruit f _ f).slices = _
    rw [Function.update_self, f2]; exact hsl
  have g2 : ((u.setFruit f { u.fruit f with fitted := true }).fruit f).slices = SL := by
    show (Function.update u.fruit f _ f).slices = _
    rw [Function.update_self, f1]
  have g3 : ((u'.setFruit f { u'.fruit f with fitted := true }).fruit f).fitted =
      ((u.setFruit f { u.fruit f with fitted := true }).fruit f).fitted := by
    show (Function.update u'.fruit f _ f).fitted = (Function.update u.fruit f _ f).fitted
    rw [Function.update_self, Function.update_self]
  exact ⟨fruitTransform_weak hC (g2.trans g1.symm) g3.symm (by rw [g1]; exact fun s hs => (hsf s hs).symm),
    fruitTransform_weak hC (g1.trans g2.symm) g3 (by rw [g2]; exact hsf)⟩

/-! ### C86 -/

/-- The slices have no preparateur and no ISS object in common.  (Sieves may be shared: `fit` copies them.) -/
def NoShared (w : World R P I W S) (s t : ℕ) : Prop :=
  (∀ a ∈ (w.slice s).preps, a ∉ (w.slice t).preps) ∧ ∀ a ∈ (w.slice s).iss, a ∉ (w.slice t).iss

theorem fitSlices_append {K : Sem R P I W S V} {ρ : ℕ → Rng R} {C X : Data R} : ∀ (pre post : List ℕ) (w : World R P I W S),
    fitSlices K ρ C X (pre ++ post) w = match fitSlices K ρ C X pre w with
      | (.error e, w') => (.error e, w')
      | (.ok (), w') => fitSlices K ρ C X post w'
  | [], post, w => rfl
  | s :: pre, post, w => by
    rw [List.cons_append, fitSlices, fitSlices]
    rcases sliceFit K ρ s C X w with ⟨e | x, u⟩
    · rfl
    · exact fitSlices_append pre post u

/-- Fitting other slices does not change what a slice sees. -/
theorem fitSlices_view {K : Sem R P I W S V} {ρ : ℕ → Rng R} {C X : Data R} {ss : List ℕ} {w : World R P I W S} (hw : w.WF)
    (hss : ∀ t ∈ ss, t < w.nSlice) {s : ℕ} (hs : s < w.nSlice) (hne : s ∉ ss) (hno : ∀ t ∈ ss, NoShared w s t) :
    SameView w (fitSlices K ρ C X ss w).2 s := by
  have st := fitSlices_steps K (B := fun _ => True) ρ C X ss w hss
  have hwords : ∀ a, ¬ (Touch.words a = .none ∨ ∃ t ∈ ss, FitTouch w t (.words a)) := by
    rintro a (h | ⟨t, _, h⟩)
    · cases h
    · exact h
  refine ⟨st.slice_eq hs ?_ ?_, fun a ha => st.prep_eq (hw.preps s hs a ha) ?_, fun a ha => ?_, fun a ha =>
    st.sieve_eq (hw.sieves s hs a ha) ?_⟩
  · rintro (h | ⟨t, _, h⟩)
    · cases h
    · exact h
  · rintro (h | ⟨t, ht, h⟩)
    · cases h
    · have h : s = t := h
      exact hne (h ▸ ht)
  · rintro (h | ⟨t, ht, h⟩)
    · cases h
    · exact (hno t ht).1 a ha h
  · have e := st.iss_eq (hw.iss s hs a ha) (by
      rintro (h | ⟨t, ht, h⟩)
      · cases h
      · exact (hno t ht).2 a ha h) (by
      rintro (h | ⟨t, ht, h⟩)
      · cases h
      · exact h)
    exact issAt_eq e (st.words_eq (hw.words a (hw.iss s hs a ha)) (hwords _))
  · rintro (h | ⟨t, ht, h⟩)
    · cases h
    · exact h

/-- **C86** for one slice: if the slice shares no preparateur and no ISS object with the other slices of the fruit, then after
`Fruit.fit` it computes the same features as if it had been fitted alone with the random numbers drawn for it. -/
theorem C86_slice_alone {K : Sem R P I W S V} (hN : K.KeepsN) {ρ : ℕ → Rng R} {w₀ w w' : World R P I W S} {ops : List (Op R P I W S)}
    (h0 : w₀.Empty) (hist : Hist K ρ w₀ ops w) {f : ℕ} (hf : f < w.nFruit) {pre post : List ℕ} {s : ℕ}
    (hsl : (w.fruit f).slices = pre ++ s :: post) (hpre : s ∉ pre) (hpost : s ∉ post)
    (hno : ∀ t ∈ pre ++ post, NoShared w s t) {C X : Data R} (hfit : fruitFit K ρ f C X w = (.ok (), w')) :
    ∃ r w'', sliceFit K ρ s C X { w with rnd := r } = (.ok (), w'') ∧
      ∀ (n : ℕ) (C' X' : Data R), sliceTransform K w' n s C' X' = sliceTransform K w'' n s C' X' := by
  have hwf := hist.wf (World.WF.empty h0)
  have hlt := hwf.slices f hf
  rw [hsl] at hlt
  have hs : s < w.nSlice := hlt s (by simp)
  have hext := ExtInv.hist hN hist h0
  have hpl : ∀ t ∈ pre, t < w.nSlice := fun t ht => hlt t (by simp [ht])
  rw [fruitFit, hsl, fitSlices_append] at hfit
  have v1 := fitSlices_view (K := K) (ρ := ρ) (C := C) (X := X) hwf hpl hs hpre fun t ht => hno t (by simp [ht])
  have st1 := fitSlices_steps K (B := fun _ => True) ρ C X pre w hpl
  rcases hm : fitSlices K ρ C X pre w with ⟨e | x, w1⟩
  · rw [hm] at hfit; simp at hfit
  rw [hm] at hfit v1 st1
  simp only at hfit v1 st1
  rw [fitSlices] at hfit
  have hwf1 := st1.wf hwf
  have st2 := sliceFit_steps K (B := fun _ => True) ρ s C X w1
  have hext1 := ExtInv.steps hN st1 hwf hext
  have hs1 : s < w1.nSlice := hs.trans_le st1.grows.slice
  have vA : SameView { w with rnd := w1.rnd } w1 s := ⟨v1.slice, v1.preps, v1.iss, v1.sieves⟩
  obtain ⟨a1, a2⟩ := sliceFit_alike (ρ := ρ) (ρ' := ρ) (Alike.of_view (K := K) vA) (fun _ => rfl) (hext s hs).1 (hext1 s hs1).1 C X
  rcases hm2 : sliceFit K ρ s C X w1 with ⟨e | x, w2⟩
  · rw [hm2] at hfit; simp at hfit
  rw [hm2] at hfit st2 a1
  simp only at hfit st2 a1
  have a2 := a2 a1.symm
  rw [hm2] at a2
  obtain ⟨b1, b2, b3, b4, b4', b5, b6, b7, b8, b9⟩ := a2
  refine ⟨w1.rnd, (sliceFit K ρ s C X { w with rnd := w1.rnd }).2, Prod.ext a1.symm rfl, fun n C' X' => ?_⟩
  have v2 : SameView (sliceFit K ρ s C X { w with rnd := w1.rnd }).2 w2 s := by
    obtain ⟨c1, c2, c3, c4⟩ := b6
    refine ⟨b1, fun a ha => ?_, fun a ha => ?_, fun a ha => ?_⟩
    · rw [← c1] at ha; exact b2 a ha
    · rw [← c2] at ha; exact b3 a ha
    · rw [← c3] at ha; rw [b4, b4']; exact v1.sieves a ha
  have hwf2 := st2.wf hwf1
  have hs2 : s < w2.nSlice := hs1.trans_le st2.grows.slice
  have hconf : ∀ t < w.nSlice, (w.slice t).SameConf (w2.slice t) := fun t ht =>
    (st1.conf ht (by
      rintro (h | ⟨t, ht, h⟩)
      · cases h
      · exact h)).trans (st2.conf (ht.trans_le st1.grows.slice) fun h => h)
  have v3 := fitSlices_view (K := K) (ρ := ρ) (C := C) (X := X) (ss := post) hwf2
    (fun t ht => (hlt t (by simp [ht])).trans_le (st1.grows.trans st2.grows).slice) hs2 hpost (by
      intro t ht
      have hn := hno t (by simp [ht])
      obtain ⟨c1, c2, c3, c4⟩ := hconf s hs
      obtain ⟨d1, d2, d3, d4⟩ := hconf t (hlt t (by simp [ht]))
      rw [NoShared, c1, c2, d1, d2]
      exact hn)
  rcases hm3 : fitSlices K ρ C X post w2 with ⟨e | x, w3⟩
  · rw [hm3] at hfit; simp at hfit
  rw [hm3] at hfit v3
  simp only [Prod.mk.injEq, true_and] at hfit
  subst hfit
  have v4 : SameView w3 (w3.setFruit f { w3.fruit f with fitted := true }) s := ⟨rfl, fun _ _ => rfl, fun _ _ => rfl, fun _ _ => rfl⟩
  exact sliceTransform_congr K ((v2.trans v3).trans v4) n C' X'

/-- **C86.**  If the slices of a fruit share no preparateurs and ISS objects, then after `Fruit.fit` every row of the result of
`Fruit.transform` consists of the features that the slices compute when each of them is fitted alone (with the random numbers
drawn for it) and used alone. -/
theorem C86_features {K : Sem R P I W S V} (hK : K.KeepsRows) (hC : K.CountsRight) (hN : K.KeepsN) {ρ : ℕ → Rng R}
    {w₀ w w' : World R P I W S} {ops : List (Op R P I W S)} (h0 : w₀.Empty) (hist : Hist K ρ w₀ ops w) {f : ℕ} (hf : f < w.nFruit)
    (hnd : (w.fruit f).slices.Nodup)
    (hno : ∀ s ∈ (w.fruit f).slices, ∀ t ∈ (w.fruit f).slices, s ≠ t → NoShared w s t)
    (hpos : ∀ s ∈ (w.fruit f).slices, ∀ a ∈ (w.slice s).sieves, 0 ≤ K.sieveN (w.sieve a))
    {C X : Data R} (hfit : fruitFit K ρ f C X w = (.ok (), w')) {n : ℕ} {C' X' : Data R} (hCX : C'.length = X'.length) {A : List (List V)} {tr : Trace R V}
    (h : fruitTransform K w' n f C' X' = (.ok A, tr)) :
    ∃ As : List (List (List V)),
      List.Forall₂ (fun s B => ∃ r w'', sliceFit K ρ s C X { w with rnd := r } = (.ok (), w'') ∧
        (sliceTransform K w'' n s C' X').1 = .ok B) (w.fruit f).slices As ∧
      A.length = X'.length ∧ ∀ i < X'.length, A.getD i [] = (As.flatMap fun B => B.getD i []).map K.post := by
  have hwf := hist.wf (World.WF.empty h0)
  have hlt := hwf.slices f hf
  have hist' : Hist K ρ w₀ (ops ++ [.fruitFit f (some C) X]) w' := by
    have := hist.snoc (.fruitFit f (some C) X) hf
    have e : (step K ρ (.fruitFit f (some C) X) w).2 = w' := by
      show (fruitFit K ρ f C X w).2 = w'
      rw [hfit]
    rw [e] at this
    exact this
  have hwf' := hist'.wf (World.WF.empty h0)
  have hfitted := fruitTransform_fitted h
  have hext := ExtInv.hist hN hist' h0
  have st := fitSlices_steps K (B := fun _ => True) ρ C X (w.fruit f).slices w hlt
  obtain ⟨hslices, hconf, hsieve⟩ : (w'.fruit f).slices = (w.fruit f).slices ∧
      (∀ s ∈ (w.fruit f).slices, (w.slice s).SameConf (w'.slice s)) ∧ ∀ a < w.nSieve, w'.sieve a = w.sieve a := by
    rw [fruitFit] at hfit
    rcases hm : fitSlices K ρ C X (w.fruit f).slices w with ⟨e | x, u⟩
    · rw [hm] at hfit; simp at hfit
    rw [hm] at hfit st
    simp only [Prod.mk.injEq, true_and] at hfit
    subst hfit
    refine ⟨?_, fun s hs => st.conf (hlt s hs) ?_, fun a ha => st.sieve_eq ha ?_⟩
    · show (Function.update u.fruit f _ f).slices = _
      rw [Function.update_self]
      have := st.fruit_eq hf (by
        rintro (h | ⟨t, ht, h⟩)
        · cases h
        · exact h)
      show (u.fruit f).slices = _
      rw [this]
    · rintro (h | ⟨t, ht, h⟩)
      · cases h
      · exact h
    · rintro (h | ⟨t, ht, h⟩)
      · cases h
      · exact h
  have hf' : f < w'.nFruit := by
    have := (step_steps K ρ (.fruitFit f (some C) X) w hf hwf).grows.fruit
    have e : (step K ρ (.fruitFit f (some C) X) w).2 = w' := by
      show (fruitFit K ρ f C X w).2 = w'
      rw [hfit]
    rw [e] at this
    exact hf.trans_le this
  have hpos' : ∀ s ∈ (w'.fruit f).slices, ∀ a ∈ (w'.slice s).sieves, 0 ≤ K.sieveN (w'.sieve a) := by
    intro s hs a ha
    rw [hslices] at hs
    rw [(hconf s hs).2.2.1] at ha
    rw [hsieve a (hwf.sieves s (hlt s hs) a ha)]
    exact hpos s hs a ha
  obtain ⟨_, cols, As, _, _, h3, h4, h5, _⟩ := fruitTransform_spec hK hC
    (fun s hs => ⟨hpos' s hs, (hext s (hwf'.slices f hf' s hs)).2 (hfitted.2 s hs)⟩) hCX h
  rw [hslices] at h3
  refine ⟨As, ?_, h4, h5⟩
  refine forall₂_imp_mem h3 fun s hs B hB => ?_
  obtain ⟨pre, post, hsl⟩ := List.append_of_mem hs
  rw [hsl] at hnd hno
  have hnot : s ∉ pre ++ post := by
    have := (List.nodup_middle.1 hnd)
    exact (List.nodup_cons.1 this).1
  obtain ⟨r, w'', hr, ht⟩ := C86_slice_alone hN h0 hist hf hsl (fun hc => hnot (by simp [hc])) (fun hc => hnot (by simp [hc])) (fun t ht =>
    hno s (by simp) t (by rcases List.mem_append.1 ht with h | h <;> simp [h]) (by rintro rfl; exact hnot ht)) hfit
  exact ⟨r, w'', hr, by rw [← ht]; exact hB⟩

end Fruits
