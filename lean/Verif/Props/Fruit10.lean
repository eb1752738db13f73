import Verif.Props.Fruit9

/-! # Fitting again and fitting several slices (properties C77, C86) -/

namespace Fruits
set_option linter.unusedSectionVars false

variable {R P I W S V : Type} [Field R] [LinearOrder R] [FloorRing R]

/-- For `fit` the two slices look the same: the same seed objects, preparateurs with the same result of `fit`, ISS objects with
the same words and the same result of `fit` (the same object if they are not fitted), sieves with the same copies. -/
structure Alike (K : Sem R P I W S V) (w w' : World R P I W S) (s : ℕ) : Prop where
  conf : (w.slice s).SameConf (w'.slice s)
  prep : ∀ a ∈ (w.slice s).preps, ∀ g C X, K.prepFit g (w'.prep a) C X = K.prepFit g (w.prep a) C X
  words : ∀ a ∈ (w.slice s).iss, (w'.issAt a).2 = (w.issAt a).2
  requires : ∀ a ∈ (w.slice s).iss, K.issRequires (w'.issAt a).1 = K.issRequires (w.issAt a).1
  iss : ∀ a ∈ (w.slice s).iss, ∀ g ws C X, K.issFit g (w'.issAt a).1 ws C X = K.issFit g (w.issAt a).1 ws C X
  same : ∀ a ∈ (w.slice s).iss, K.issRequires (w.issAt a).1 = false → (w'.issAt a).1 = (w.issAt a).1
  copy : ∀ a ∈ (w.slice s).sieves, K.sieveCopy (w'.sieve a) = K.sieveCopy (w.sieve a)
  req : ∀ a ∈ (w.slice s).sieves, K.sieveRequires (w'.sieve a) = K.sieveRequires (w.sieve a)
  num : ∀ a ∈ (w.slice s).sieves, K.sieveN (w'.sieve a) = K.sieveN (w.sieve a)
  trans : ∀ a ∈ (w.slice s).sieves, K.sieveRequires (w.sieve a) = false →
    ∀ C X, K.sieveTransform (w'.sieve a) C X = K.sieveTransform (w.sieve a) C X

theorem Alike.of_view {K : Sem R P I W S V} {w w' : World R P I W S} {s : ℕ} (h : SameView w w' s) : Alike K w w' s where
  conf := by rw [h.slice]; exact SliceObj.SameConf.refl _
  prep := fun a ha _ _ _ => by rw [h.preps a ha]
  words := fun a ha => by rw [h.iss a ha]
  requires := fun a ha => by rw [h.iss a ha]
  iss := fun a ha _ _ _ _ => by rw [h.iss a ha]
  same := fun a ha _ => by rw [h.iss a ha]
  copy := fun a ha => by rw [h.sieves a ha]
  req := fun a ha => by rw [h.sieves a ha]
  num := fun a ha => by rw [h.sieves a ha]
  trans := fun a ha _ _ _ => by rw [h.sieves a ha]

/-- From now on the same random numbers are drawn in both worlds. -/
def Aligned (ρ ρ' : ℕ → Rng R) (w w' : World R P I W S) : Prop := ∀ k, ρ' (w'.rnd + k) = ρ (w.rnd + k)

theorem Aligned.tick {ρ ρ' : ℕ → Rng R} {w w' : World R P I W S} (h : Aligned ρ ρ' w w') : Aligned ρ ρ' w.tick w'.tick := by
  intro k
  have := h (k + 1)
  simp only [World.tick]
  rw [show w'.rnd + 1 + k = w'.rnd + (k + 1) by omega, show w.rnd + 1 + k = w.rnd + (k + 1) by omega, this]

theorem fitPreps_alike {K : Sem R P I W S V} {ρ ρ' : ℕ → Rng R} {C : Data R} : ∀ (as : List ℕ) (X : Data R) (w w' : World R P I W S),
    (∀ a ∈ as, ∀ g C X, K.prepFit g (w'.prep a) C X = K.prepFit g (w.prep a) C X) → Aligned ρ ρ' w w' →
    (fitPreps K ρ' C as X w').1 = (fitPreps K ρ C as X w).1 ∧
    Aligned ρ ρ' (fitPreps K ρ C as X w).2 (fitPreps K ρ' C as X w').2 ∧
    (∀ a, w'.prep a = w.prep a → (fitPreps K ρ' C as X w').2.prep a = (fitPreps K ρ C as X w).2.prep a) ∧
    ∀ Y, (fitPreps K ρ C as X w).1 = .ok Y → ∀ a ∈ as, (fitPreps K ρ' C as X w').2.prep a = (fitPreps K ρ C as X w).2.prep a
  | [], X, w, w', _, hal => ⟨rfl, hal, fun a h => h, fun _ _ a ha => by simp at ha⟩
  | a :: as, X, w, w', h, hal => by
    have h0 : ρ' w'.rnd = ρ w.rnd := by simpa using hal 0
    rw [fitPreps, fitPreps, h0, h a (List.mem_cons_self ..)]
    rcases K.prepFit (ρ w.rnd) (w.prep a) C X with e | p
    · exact ⟨rfl, hal.tick, fun b hb => hb, fun Y hY => by simp at hY⟩
    have hset : ∀ b, (w'.prep b = w.prep b ∨ b = a) → (w'.tick.setPrep a p).prep b = (w.tick.setPrep a p).prep b := by
      intro b hb
      by_cases hba : b = a
      · subst hba; simp [World.setPrep]
      · rcases hb with hb | hb
        · simp only [World.setPrep, Function.update_of_ne hba]; exact hb
        · exact absurd hb hba
    simp only
    rcases hT : K.prepTransform p C X with e | Y
    · exact ⟨rfl, hal.tick, fun b hb => hset b (Or.inl hb), fun Y hY => by simp at hY⟩
    simp only
    obtain ⟨i1, i2, i3, i4⟩ := fitPreps_alike (K := K) (ρ := ρ) (ρ' := ρ') (C := C) as Y (w.tick.setPrep a p) (w'.tick.setPrep a p) (by
      intro b hb g C X
      by_cases hba : b = a
      · rw [hset b (Or.inr hba)]
      · simp only [World.setPrep, Function.update_of_ne hba]
        exact h b (List.mem_cons_of_mem _ hb) g C X) hal.tick
    refine ⟨i1, i2, fun b hb => i3 b (hset b (Or.inl hb)), fun Z hZ b hb => ?_⟩
    rcases List.mem_cons.1 hb with rfl | hb
    · exact i3 b (hset b (Or.inr rfl))
    · exact i4 Z hZ b hb

/-- What fitting preparateurs does not change. -/
theorem fitPreps_frame (K : Sem R P I W S V) (ρ : ℕ → Rng R) (C : Data R) : ∀ (as : List ℕ) (X : Data R) (w : World R P I W S),
    (fitPreps K ρ C as X w).2.iss = w.iss ∧ (fitPreps K ρ C as X w).2.words = w.words ∧
    (fitPreps K ρ C as X w).2.sieve = w.sieve ∧ (fitPreps K ρ C as X w).2.slice = w.slice
  | [], _, _ => ⟨rfl, rfl, rfl, rfl⟩
  | a :: as, X, w => by
    rw [fitPreps]
    rcases K.prepFit (ρ w.rnd) (w.prep a) C X with e | p
    · exact ⟨rfl, rfl, rfl, rfl⟩
    · rcases h : K.prepTransform p C X with e | Y
      · simp only [h]; exact ⟨rfl, rfl, rfl, rfl⟩
      · simp only [h]; exact fitPreps_frame K ρ C as Y _

/-- What fitting ISS objects does not change. -/
theorem fitIss_frame (K : Sem R P I W S V) (ρ : ℕ → Rng R) (C X : Data R) : ∀ (as : List ℕ) (w : World R P I W S),
    (fitIss K ρ C X as w).2.prep = w.prep ∧ (fitIss K ρ C X as w).2.sieve = w.sieve ∧ (fitIss K ρ C X as w).2.slice = w.slice
  | [], _ => ⟨rfl, rfl, rfl⟩
  | a :: as, w => by
    rw [fitIss]
    by_cases hr : K.issRequires (w.issAt a).1 = true
    · rw [if_pos hr]
      rcases K.issFit (ρ w.rnd) (w.issAt a).1 (w.issAt a).2 C X with e | i
      · exact ⟨rfl, rfl, rfl⟩
      · exact fitIss_frame K ρ C X as _
    · rw [if_neg hr]; exact fitIss_frame K ρ C X as w

theorem issAt_setIss (w : World R P I W S) (a : ℕ) (i : I) (b : ℕ) :
    (w.setIss a i).issAt b = if b = a then (i, (w.issAt a).2) else w.issAt b := by
  by_cases h : b = a
  · subst h; simp [World.issAt, World.setIss]
  · rw [if_neg h]; simp [World.issAt, World.setIss, Function.update_of_ne h]

theorem fitIss_alike {K : Sem R P I W S V} {ρ ρ' : ℕ → Rng R} {C X : Data R} : ∀ (as : List ℕ) (w w' : World R P I W S),
    (∀ a ∈ as, (w'.issAt a).2 = (w.issAt a).2 ∧ K.issRequires (w'.issAt a).1 = K.issRequires (w.issAt a).1 ∧
      (∀ g ws C X, K.issFit g (w'.issAt a).1 ws C X = K.issFit g (w.issAt a).1 ws C X) ∧
      (K.issRequires (w.issAt a).1 = false → (w'.issAt a).1 = (w.issAt a).1)) → Aligned ρ ρ' w w' →
    (fitIss K ρ' C X as w').1 = (fitIss K ρ C X as w).1 ∧
    Aligned ρ ρ' (fitIss K ρ C X as w).2 (fitIss K ρ' C X as w').2 ∧
    (∀ a, w'.issAt a = w.issAt a → (fitIss K ρ' C X as w').2.issAt a = (fitIss K ρ C X as w).2.issAt a) ∧
    ((fitIss K ρ C X as w).1 = .ok () → ∀ a ∈ as, (fitIss K ρ' C X as w').2.issAt a = (fitIss K ρ C X as w).2.issAt a)
  | [], w, w', _, hal => ⟨rfl, hal, fun a h => h, fun _ a ha => by simp at ha⟩
  | a :: as, w, w', h, hal => by
    obtain ⟨a1, a2, a3, a4⟩ := h a (List.mem_cons_self ..)
    have h0 : ρ' w'.rnd = ρ w.rnd := by simpa using hal 0
    rw [fitIss, fitIss, a2, h0, a1, a3]
    by_cases hr : K.issRequires (w.issAt a).1 = true
    · rw [if_pos hr, if_pos hr]
      rcases K.issFit (ρ w.rnd) (w.issAt a).1 (w.issAt a).2 C X with e | i
      · exact ⟨rfl, hal.tick, fun b hb => hb, fun hY => by simp at hY⟩
      have hset : ∀ b, (w'.issAt b = w.issAt b ∨ b = a) → (w'.tick.setIss a i).issAt b = (w.tick.setIss a i).issAt b := by
        intro b hb
        rw [issAt_setIss, issAt_setIss]
        by_cases hba : b = a
        · rw [if_pos hba, if_pos hba]
          show (i, (w'.issAt a).2) = (i, (w.issAt a).2)
          rw [a1]
        · rw [if_neg hba, if_neg hba]
          rcases hb with hb | hb
          · exact hb
          · exact absurd hb hba
      simp only
      obtain ⟨i1, i2, i3, i4⟩ := fitIss_alike (K := K) (ρ := ρ) (ρ' := ρ') (C := C) (X := X) as (w.tick.setIss a i) (w'.tick.setIss a i) (by
        intro b hb
        by_cases hba : b = a
        · rw [hset b (Or.inr hba)]
          exact ⟨rfl, rfl, fun _ _ _ _ => rfl, fun _ => rfl⟩
        · rw [issAt_setIss, issAt_setIss, if_neg hba, if_neg hba]
          exact h b (List.mem_cons_of_mem _ hb)) hal.tick
      refine ⟨i1, i2, fun b hb => i3 b (hset b (Or.inl hb)), fun hZ b hb => ?_⟩
      rcases List.mem_cons.1 hb with rfl | hb
      · exact i3 b (hset b (Or.inr rfl))
      · exact i4 hZ b hb
    · rw [if_neg hr, if_neg hr]
      obtain ⟨i1, i2, i3, i4⟩ := fitIss_alike (K := K) (ρ := ρ) (ρ' := ρ') (C := C) (X := X) as w w'
        (fun b hb => h b (List.mem_cons_of_mem _ hb)) hal
      refine ⟨i1, i2, i3, fun hZ b hb => ?_⟩
      rcases List.mem_cons.1 hb with rfl | hb
      · exact i3 b (Prod.ext (a4 (by simpa using hr)) a1)
      · exact i4 hZ b hb

theorem fitSieves_alike {K : Sem R P I W S V} {ρ ρ' : ℕ → Rng R} {C : Data R} {it : List (List R)} : ∀ (ss : List S) (r r' : ℕ),
    (∀ k, ρ' (r' + k) = ρ (r + k)) → ∃ k, (fitSieves K ρ C it ss r).2 = r + k ∧
      fitSieves K ρ' C it ss r' = ((fitSieves K ρ C it ss r).1, r' + k)
  | [], r, r', _ => ⟨0, rfl, rfl⟩
  | s :: ss, r, r', h => by
    have h0 : ρ' r' = ρ r := by simpa using h 0
    rw [fitSieves, fitSieves, h0]
    rcases K.sieveFit (ρ r) s C it with e | s'
    · exact ⟨1, rfl, rfl⟩
    simp only
    obtain ⟨k, hk1, hk2⟩ := fitSieves_alike (K := K) (ρ := ρ) (ρ' := ρ') (C := C) (it := it) ss (r + 1) (r' + 1) (fun k => by
      have := h (k + 1)
      rw [show r' + 1 + k = r' + (k + 1) by omega, show r + 1 + k = r + (k + 1) by omega, this])
    rw [hk2]
    rcases hf : fitSieves K ρ C it ss (r + 1) with ⟨e | ss', r₁⟩
    · rw [hf] at hk1
      simp only at hk1
      exact ⟨k + 1, by simp only; omega, by simp only [Prod.mk.injEq, true_and]; omega⟩
    · rw [hf] at hk1
      simp only at hk1
      exact ⟨k + 1, by simp only; omega, by simp only [Prod.mk.injEq, true_and]; omega⟩

theorem fitItems_alike {K : Sem R P I W S V} {ρ ρ' : ℕ → Rng R} {C : Data R} {ss ss' : List S}
    (hss : ss'.mapM K.sieveCopy = ss.mapM K.sieveCopy) : ∀ (its : List (List (List R))) (e : Option Err) (r r' : ℕ),
    (∀ k, ρ' (r' + k) = ρ (r + k)) → ∃ k, (fitItems K ρ C ss its e r).2 = r + k ∧
      fitItems K ρ' C ss' its e r' = ((fitItems K ρ C ss its e r).1, r' + k)
  | [], e, r, r', _ => ⟨0, rfl, rfl⟩
  | it :: its, e, r, r', h => by
    rw [fitItems, fitItems, hss]
    rcases ss.mapM K.sieveCopy with e' | cs
    · exact ⟨0, rfl, rfl⟩
    simp only
    obtain ⟨k, hk1, hk2⟩ := fitSieves_alike (K := K) (ρ := ρ) (ρ' := ρ') (C := C) (it := it) cs r r' h
    rw [hk2]
    rcases hf : fitSieves K ρ C it cs r with ⟨e' | row, r₁⟩
    · rw [hf] at hk1; exact ⟨k, hk1, rfl⟩
    rw [hf] at hk1
    simp only at hk1 ⊢
    subst hk1
    obtain ⟨k', h1, h2⟩ := fitItems_alike (K := K) (ρ := ρ) (ρ' := ρ') (C := C) hss its e (r + k) (r' + k) (fun j => by
      rw [Nat.add_assoc, Nat.add_assoc, h])
    rw [h2]
    exact ⟨k + k', by rw [h1]; omega, by simp only [Prod.mk.injEq, true_and]; omega⟩

/-- `fit` of two slices that look the same for it, with the same random numbers, has the same outcome, and leaves the same
attributes in the slice, the preparateurs and the ISS objects if it succeeds.  The sieves that were added are not changed. -/
theorem sliceFit_alike {K : Sem R P I W S V} {ρ ρ' : ℕ → Rng R} {w w' : World R P I W S} {s : ℕ} (hA : Alike K w w' s)
    (hal : Aligned ρ ρ' w w') (he : (w.slice s).ext = [] ∨ anyRequires K w s = true)
    (he' : (w'.slice s).ext = [] ∨ anyRequires K w' s = true) (C X : Data R) :
    (sliceFit K ρ' s C X w').1 = (sliceFit K ρ s C X w).1 ∧
    ((sliceFit K ρ s C X w).1 = .ok () →
      (sliceFit K ρ' s C X w').2.slice s = (sliceFit K ρ s C X w).2.slice s ∧
      (∀ a ∈ (w.slice s).preps, (sliceFit K ρ' s C X w').2.prep a = (sliceFit K ρ s C X w).2.prep a) ∧
      (∀ a ∈ (w.slice s).iss, (sliceFit K ρ' s C X w').2.issAt a = (sliceFit K ρ s C X w).2.issAt a) ∧
      (sliceFit K ρ s C X w).2.sieve = w.sieve ∧ (sliceFit K ρ' s C X w').2.sieve = w'.sieve ∧
      (((sliceFit K ρ s C X w).2.slice s).ext = [] → anyRequires K w s = true →
        ∃ Y, iterateIss K C ((w.slice s).iss.map (sliceFit K ρ s C X w).2.issAt) Y = ([], none)) ∧
      ((sliceFit K ρ s C X w).2.slice s).SameConf (w.slice s) ∧
      Aligned ρ ρ' (sliceFit K ρ s C X w).2 (sliceFit K ρ' s C X w').2 ∧
      (∀ a, w'.prep a = w.prep a → (sliceFit K ρ' s C X w').2.prep a = (sliceFit K ρ s C X w).2.prep a) ∧
      ∀ a, w'.issAt a = w.issAt a → (sliceFit K ρ' s C X w').2.issAt a = (sliceFit K ρ s C X w).2.issAt a) := by
  obtain ⟨c1, c2, c3, c4⟩ := hA.conf
  have h0 : ρ' w'.rnd = ρ w.rnd := by simpa using hal 0
  rw [sliceFit, sliceFit, c1, c2, c3, c4, h0]
  by_cases hi : (w.slice s).iss = []
  · rw [if_pos hi, if_pos hi]; exact ⟨rfl, fun h => by simp at h⟩
  rw [if_neg hi, if_neg hi]
  by_cases hsv : (w.slice s).sieves = []
  · rw [if_pos hsv, if_pos hsv]; exact ⟨rfl, fun h => by simp at h⟩
  rw [if_neg hsv, if_neg hsv]
  rcases selectSample (ρ w.rnd) (w.slice s).sample X with e | D
  · exact ⟨rfl, fun h => by simp at h⟩
  simp only
  obtain ⟨p1, p2, p3, p4⟩ := fitPreps_alike (K := K) (ρ := ρ) (ρ' := ρ') (C := C) (w.slice s).preps D w.tick w'.tick hA.prep hal.tick
  obtain ⟨f1, f2, f3, f4⟩ := fitPreps_frame K ρ C (w.slice s).preps D w.tick
  obtain ⟨f1', f2', f3', f4'⟩ := fitPreps_frame K ρ' C (w.slice s).preps D w'.tick
  rcases hm : fitPreps K ρ C (w.slice s).preps D w.tick with ⟨e | Y, w1⟩
  · rcases hm' : fitPreps K ρ' C (w.slice s).preps D w'.tick with ⟨r, w1'⟩
    rw [hm, hm'] at p1
    simp only at p1
    subst p1
    exact ⟨rfl, fun h => by simp at h⟩
  rcases hm' : fitPreps K ρ' C (w.slice s).preps D w'.tick with ⟨r, w1'⟩
  rw [hm, hm'] at p1 p2 p3 p4
  rw [hm] at f1 f2 f3 f4
  rw [hm'] at f1' f2' f3' f4'
  simp only at p1 p2 p3 p4 f1 f2 f3 f4 f1' f2' f3' f4'
  subst p1
  have p4 := p4 Y rfl
  simp only
  have hat : ∀ a, w1.issAt a = w.issAt a := fun a => by rw [World.issAt, World.issAt, f1, f2]; rfl
  have hat' : ∀ a, w1'.issAt a = w'.issAt a := fun a => by rw [World.issAt, World.issAt, f1', f2']; rfl
  obtain ⟨q1, q2, q3, q4⟩ := fitIss_alike (K := K) (ρ := ρ) (ρ' := ρ') (C := C) (X := Y) (w.slice s).iss w1 w1' (by
    intro a ha
    rw [hat, hat']
    exact ⟨hA.words a ha, hA.requires a ha, hA.iss a ha, hA.same a ha⟩) p2
  obtain ⟨g1, g2, g3⟩ := fitIss_frame K ρ C Y (w.slice s).iss w1
  obtain ⟨g1', g2', g3'⟩ := fitIss_frame K ρ' C Y (w.slice s).iss w1'
  rcases hm2 : fitIss K ρ C Y (w.slice s).iss w1 with ⟨e | u, w2⟩
  · rcases hm2' : fitIss K ρ' C Y (w.slice s).iss w1' with ⟨r, w2'⟩
    rw [hm2, hm2'] at q1
    simp only at q1
    subst q1
    exact ⟨rfl, fun h => by simp at h⟩
  rcases hm2' : fitIss K ρ' C Y (w.slice s).iss w1' with ⟨r, w2'⟩
  rw [hm2, hm2'] at q1 q2 q3 q4
  rw [hm2] at g1 g2 g3
  rw [hm2'] at g1' g2' g3'
  simp only at q1 q2 q3 q4 g1 g2 g3 g1' g2' g3'
  subst q1
  have q4 := q4 trivial
  simp only
  have e1 : w2.slice s = w.slice s := by rw [g3, f4]; rfl
  have e1' : w2'.slice s = w'.slice s := by rw [g3', f4']; rfl
  have e2 : w2.sieve = w.sieve := by rw [g2, f3]; rfl
  have e2' : w2'.sieve = w'.sieve := by rw [g2', f3']; rfl
  have e3 : ∀ a ∈ (w.slice s).preps, w2'.prep a = w2.prep a := fun a ha => by rw [g1, g1']; exact p4 a ha
  have e4 : ∀ a, w'.prep a = w.prep a → w2'.prep a = w2.prep a := fun a ha => by rw [g1, g1']; exact p3 a ha
  have e5 : ∀ a, w'.issAt a = w.issAt a → w2'.issAt a = w2.issAt a := fun a ha => q3 a (by rw [hat, hat']; exact ha)
  have hreq : anyRequires K w2 s = anyRequires K w s := by rw [anyRequires, anyRequires, e1, e2]
  have hreq' : anyRequires K w2' s = anyRequires K w s := by
    rw [anyRequires_eq, anyRequires_eq, e1', e2', c3]
    exact congrArg (fun l : List Bool => l.any id) (List.map_congr_left hA.req)
  have hreqw' : anyRequires K w' s = anyRequires K w s := by
    rw [← hreq', anyRequires, anyRequires, e1', e2']
  rw [fitFinish, fitFinish, hreq, hreq']
  by_cases hr : anyRequires K w s = true
  · rw [if_pos hr, if_pos hr]
    have hits : (w2'.slice s).iss.map w2'.issAt = (w2.slice s).iss.map w2.issAt := by
      rw [e1, e1', c2]; exact List.map_congr_left q4
    rw [hits]
    have hcop : ((w2'.slice s).sieves.map w2'.sieve).mapM K.sieveCopy = ((w2.slice s).sieves.map w2.sieve).mapM K.sieveCopy := by
      rw [mapM_map, mapM_map, e1, e1', e2, e2', c3]
      exact mapM_congr_mem hA.copy
    obtain ⟨k, hk1, hk2⟩ := fitItems_alike (K := K) (ρ := ρ) (ρ' := ρ') (C := C) hcop
      (iterateIss K C ((w2.slice s).iss.map w2.issAt) Y).1 (iterateIss K C ((w2.slice s).iss.map w2.issAt) Y).2
      w2.rnd w2'.rnd q2
    rw [hk2]
    rcases hm3 : fitItems K ρ C ((w2.slice s).sieves.map w2.sieve) (iterateIss K C ((w2.slice s).iss.map w2.issAt) Y).1
        (iterateIss K C ((w2.slice s).iss.map w2.issAt) Y).2 w2.rnd with ⟨⟨rows, _ | e⟩, r⟩
    · refine ⟨rfl, fun _ => ⟨?_, e3, q4, e2, e2', ?_, ?_, ?_, e4, e5⟩⟩
      · have e0 : w2'.slice s = { (w2.slice s) with ext := (w'.slice s).ext, fitted := (w'.slice s).fitted } := by
          rw [e1, e1']
          revert c1 c2 c3 c4
          cases w'.slice s; cases w.slice s
          rintro rfl rfl rfl rfl
          rfl
        show Function.update w2'.slice s _ s = Function.update w2.slice s _ s
        rw [Function.update_self, Function.update_self, e0]
      · intro hext _
        refine ⟨Y, ?_⟩
        have hrows : rows = [] := by
          have : (Function.update w2.slice s { w2.slice s with ext := rows, fitted := true } s).ext = [] := hext
          rwa [Function.update_self] at this
        subst hrows
        show iterateIss K C ((w.slice s).iss.map w2.issAt) Y = _
        rw [e1] at hm3
        rcases hg : iterateIss K C ((w.slice s).iss.map w2.issAt) Y with ⟨its, ee⟩
        rw [hg] at hm3
        simp only at hm3
        cases its with
        | nil =>
          simp only [fitItems, Prod.mk.injEq, true_and] at hm3
          rw [hm3.1]
        | cons it its =>
          exfalso
          rw [fitItems] at hm3
          rcases hc : ((w.slice s).sieves.map w2.sieve).mapM K.sieveCopy with e' | cs
          · rw [hc] at hm3; simp at hm3
          rw [hc] at hm3
          simp only at hm3
          rcases hff : fitSieves K ρ C it cs w2.rnd with ⟨e' | row, r₁⟩
          · rw [hff] at hm3; simp at hm3
          · rw [hff] at hm3; simp at hm3
      · show (Function.update w2.slice s { w2.slice s with ext := rows, fitted := true } s).SameConf _
        rw [Function.update_self, ← e1]
        exact ⟨rfl, rfl, rfl, rfl⟩
      · intro j
        rw [hm3] at hk1
        have hk1 : r = w2.rnd + k := hk1
        show ρ' (w2'.rnd + k + j) = ρ (r + j)
        rw [hk1, Nat.add_assoc, Nat.add_assoc, q2]
    · exact ⟨rfl, fun h => by simp at h⟩
  · rw [if_neg hr, if_neg hr]
    refine ⟨rfl, fun _ => ⟨?_, e3, q4, e2, e2', fun _ h => absurd h hr, ?_, q2, e4, e5⟩⟩
    · have x1 : (w.slice s).ext = [] := he.resolve_right hr
      have x1' : (w'.slice s).ext = [] := he'.resolve_right (by rw [hreqw']; exact hr)
      show Function.update w2'.slice s _ s = Function.update w2.slice s _ s
      have e0 : w2'.slice s = { (w2.slice s) with ext := (w'.slice s).ext, fitted := (w'.slice s).fitted } := by
          rw [e1, e1']
          revert c1 c2 c3 c4
          cases w'.slice s; cases w.slice s
          rintro rfl rfl rfl rfl
          rfl
      rw [Function.update_self, Function.update_self, e0, x1', e1, x1]
    · show (Function.update w2.slice s { w2.slice s with fitted := true } s).SameConf _
      rw [Function.update_self, ← e1]
      exact ⟨rfl, rfl, rfl, rfl⟩

end Fruits
