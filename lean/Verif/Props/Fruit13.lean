import Verif.Props.Fruit12

/-! # A failed fit (property C78) -/

namespace Fruits
set_option linter.unusedSectionVars false

variable {R P I W S V : Type} [Field R] [LinearOrder R] [FloorRing R]

/-- Where `Fruit.fit` fails: the slices before are fitted, one slice raises. -/
theorem fitSlices_fails {K : Sem R P I W S V} {ρ : ℕ → Rng R} {C X : Data R} {e : Err} : ∀ (ss : List ℕ) (w : World R P I W S),
    (fitSlices K ρ C X ss w).1 = .error e → ∃ pre s post w', ss = pre ++ s :: post ∧ fitSlices K ρ C X pre w = (.ok (), w') ∧
      (sliceFit K ρ s C X w').1 = .error e ∧ (fitSlices K ρ C X ss w).2 = (sliceFit K ρ s C X w').2
  | [], w, h => by cases h
  | s :: ss, w, h => by
    rw [fitSlices] at h
    rcases hm : sliceFit K ρ s C X w with ⟨e' | x, w1⟩
    · rw [hm] at h
      simp only at h
      exact ⟨[], s, ss, w, rfl, rfl, by rw [hm]; exact h, by rw [fitSlices, hm]⟩
    · rw [hm] at h
      simp only at h
      obtain ⟨pre, t, post, w', h1, h2, h3, h4⟩ := fitSlices_fails ss w1 h
      refine ⟨s :: pre, t, post, w', by rw [h1]; rfl, ?_, h3, ?_⟩
      · rw [fitSlices, hm]; exact h2
      · rw [fitSlices, hm]; exact h4

/-- **C78**, the part that holds, for `FruitSlice.fit`.  After any history: if `fit` of a slice raises, then `transform` raises
unless the slice had been fitted successfully before (and its seeds were not changed since). -/
theorem C78_slice_partial {K : Sem R P I W S V} {ρ : ℕ → Rng R} {w₀ w w' : World R P I W S} {ops : List (Op R P I W S)}
    (h0 : w₀.Empty) (hist : Hist K ρ w₀ ops w) {s : ℕ} (hs : s < w.nSlice) {C X : Data R} {e : Err}
    (hfit : sliceFit K ρ s C X w = (.error e, w')) (hn : ¬ FittedSince K ρ w₀ s ops) (n : ℕ) (C' X' : Data R) :
    (sliceTransform K w' n s C' X').1 = .error .runtimeError := by
  rw [sliceTransform, if_neg]
  intro hf
  have key := sliceFit_fitted (K := K) (ρ := ρ) (t := s) (C := C) (X := X) hs (hist.wf (World.WF.empty h0))
  rw [hfit] at key
  rcases key hf with h1 | ⟨_, h1⟩
  · exact hn (fitted_since hist h0 hs h1)
  · cases h1

/-- **C78**, the part that holds.  After any history: if `Fruit.fit` raises and `Fruit.transform` returns features all the same,
then the slice whose fit raised and all slices after it had been fitted successfully before.  (Slices before the one that
raised have been fitted by this call.) -/
theorem C78_partial {K : Sem R P I W S V} {ρ : ℕ → Rng R} {w₀ w w' : World R P I W S} {ops : List (Op R P I W S)}
    (h0 : w₀.Empty) (hist : Hist K ρ w₀ ops w) {f : ℕ} (hf : f < w.nFruit) {C X : Data R} {e : Err}
    (hfit : fruitFit K ρ f C X w = (.error e, w')) {n : ℕ} {C' X' : Data R} {A : List (List V)} {tr : Trace R V}
    (h : fruitTransform K w' n f C' X' = (.ok A, tr)) :
    ∃ pre s post w₁, (w.fruit f).slices = pre ++ s :: post ∧ fitSlices K ρ C X pre w = (.ok (), w₁) ∧
      (sliceFit K ρ s C X w₁).1 = .error e ∧ ∀ t ∈ s :: post, t ∉ pre → FittedSince K ρ w₀ t ops := by
  have hwf := hist.wf (World.WF.empty h0)
  have hlt := hwf.slices f hf
  have st := fitSlices_steps K (B := fun _ => True) ρ C X (w.fruit f).slices w hlt
  rw [fruitFit] at hfit
  rcases hm : fitSlices K ρ C X (w.fruit f).slices w with ⟨e' | x, u⟩
  swap
  · rw [hm] at hfit; cases hfit
  rw [hm] at hfit st
  simp only [Prod.mk.injEq, Except.error.injEq] at hfit st
  obtain ⟨rfl, rfl⟩ := hfit
  obtain ⟨pre, s, post, w₁, h1, h2, h3, h4⟩ := fitSlices_fails (K := K) (ρ := ρ) (C := C) (X := X) (e := e') (w.fruit f).slices w (by rw [hm])
  rw [hm] at h4
  simp only at h4
  refine ⟨pre, s, post, w₁, h1, h2, h3, fun t ht htp => ?_⟩
  have hts : t ∈ (w.fruit f).slices := by rw [h1]; exact List.mem_append_right _ ht
  have htl := hlt t hts
  have ff : u.fruit f = w.fruit f := st.fruit_eq hf (by
    rintro (h | ⟨s, _, h⟩)
    · cases h
    · exact h)
  have hfitted := (fruitTransform_fitted h).2 t (by rw [ff]; exact hts)
  have st1 := fitSlices_steps K (B := fun _ => True) ρ C X pre w fun a ha => hlt a (by rw [h1]; exact List.mem_append_left _ ha)
  have key := sliceFit_fitted (K := K) (ρ := ρ) (s := t) (t := s) (C := C) (X := X) (w := w₁)
    (by have := st1.grows.slice; rw [h2] at this; exact htl.trans_le this) (by have := st1.wf hwf; rw [h2] at this; exact this)
  rw [h4] at hfitted
  rcases key hfitted with h5 | ⟨_, h5⟩
  · have key2 := fitSlices_fitted (K := K) (ρ := ρ) (s := t) (C := C) (X := X) pre w htl hwf (by rw [h2]; exact h5)
    rcases key2 with h6 | ⟨b, a, _, h6, _⟩
    · exact fitted_since hist h0 htl h6
    · exact absurd (by rw [h6]; simp) htp
  · rw [h5] at h3; cases h3

/-- **C78** for a fruit that is fitted for the first time: if no slice has been fitted since its last change and `fit` raises,
then `transform` raises. -/
theorem C78_first_fit_partial {K : Sem R P I W S V} {ρ : ℕ → Rng R} {w₀ w w' : World R P I W S} {ops : List (Op R P I W S)}
    (h0 : w₀.Empty) (hist : Hist K ρ w₀ ops w) {f : ℕ} (hf : f < w.nFruit) (hnd : (w.fruit f).slices.Nodup)
    (hn : ∀ s ∈ (w.fruit f).slices, ¬ FittedSince K ρ w₀ s ops) {C X : Data R} {e : Err}
    (hfit : fruitFit K ρ f C X w = (.error e, w')) (n : ℕ) (C' X' : Data R) :
    ∃ e', (fruitTransform K w' n f C' X').1 = .error e' := by
  rcases hr : fruitTransform K w' n f C' X' with ⟨e' | A, tr⟩
  · exact ⟨e', rfl⟩
  obtain ⟨pre, s, post, w₁, h1, h2, h3, h4⟩ := C78_partial h0 hist hf hfit hr
  have hs : s ∈ (w.fruit f).slices := by rw [h1]; simp
  refine absurd (h4 s (by simp) ?_) (hn s hs)
  rw [h1] at hnd
  intro hsp
  exact (List.nodup_append.1 hnd).2.2 s hsp s (by simp) rfl

end Fruits
