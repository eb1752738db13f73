import Verif.Props.Fruit5

/-! # Deep copies of a fruit (C79) -/

namespace Fruits
set_option linter.unusedSectionVars false

variable {R P I W S V : Type} [Field R] [LinearOrder R] [FloorRing R]

/-- Objects that existed have the same attributes after the construction of new objects. -/
theorem Steps.same_old {K : Sem R P I W S V} {B : Ref → Prop} {A : Touch → Prop} {w w' : World R P I W S} (h : Steps K B A w w')
    (hA : ∀ l, A l → l.Fresh w) : (Region.all w).Same w w' :=
  h.same (by
    intro l hl
    have hl := hA l hl
    cases l with
    | none => exact fun h => h
    | slice t => exact fun hF => absurd hF (by have : w.nSlice ≤ t := hl; simp [Region.Written, Region.all]; omega)
    | fruit t => exact fun hF => absurd hF (by have : w.nFruit ≤ t := hl; simp [Region.Written, Region.all]; omega)
    | _ => exact hl.elim) (all_inside (Grows.refl w))

/-- New slices made of new objects have no seed in common with the slices that existed. -/
theorem Steps.separated_old {K : Sem R P I W S V} {B : Ref → Prop} {A : Touch → Prop} {w w' : World R P I W S} (h : Steps K B A w w')
    (hB : ∀ r, B r → r.Fresh w) : (Region.all w).Separated w' := by
  refine h.separated ?_ (all_inside (Grows.refl w)) ?_
  · intro r hr hF
    have hr := hB r hr
    cases r with
    | prep a => exact absurd hF (by have : w.nPrep ≤ a := hr; simp [Region.Has, Region.all]; omega)
    | iss a => exact absurd hF (by have : w.nIss ≤ a := hr; simp [Region.Has, Region.all]; omega)
    | sieve a => exact absurd hF (by have : w.nSieve ≤ a := hr; simp [Region.Has, Region.all]; omega)
    | slice a => exact absurd hF (by have : w.nSlice ≤ a := hr; simp [Region.Has, Region.all]; omega)
  · exact ⟨fun s hs hF => absurd hs hF, fun s hs hF => absurd hs hF, fun s hs hF => absurd hs hF, fun s hs hF => absurd hs hF⟩

/-- Old slices have no seed among the new objects. -/
theorem separated_new {w w' : World R P I W S} (hw : w.WF) (hold : (Region.all w).Same w w') : (Region.created w w').Separated w' := by
  have key : ∀ t < w'.nSlice, ¬ (Region.created w w').slice t → t < w.nSlice := by
    intro t ht1 ht2
    by_contra hcon
    exact ht2 ⟨by omega, ht1⟩
  refine ⟨?_, ?_, ?_, ?_⟩
  · intro t ht1 ht2 a ha1 hF
    have ht := key t ht1 ht2
    rw [hold.slice t ht] at ha1
    have := hw.preps t ht a ha1
    have := hF.1
    omega
  · intro t ht1 ht2 a ha1 hF
    have ht := key t ht1 ht2
    rw [hold.slice t ht] at ha1
    have := hw.iss t ht a ha1
    have := hF.1
    omega
  · intro t ht1 ht2 a ha1 hF
    have ht := key t ht1 ht2
    rw [hold.slice t ht] at ha1
    have := hw.sieves t ht a ha1
    have := hF.1
    omega
  · intro f hf1 hf2 t ht1 hF
    have hf : f < w.nFruit := by
      by_contra hcon
      exact hf2 ⟨by omega, hf1⟩
    rw [hold.fruit f hf] at ht1
    have := hw.slices f hf t ht1
    have := hF.1
    omega

theorem DeepCopyOf.extend {K : Sem R P I W S V} {w w₁ w₂ : World R P I W S} {s d : ℕ} (h : DeepCopyOf K w s w₁ d) (hw₁ : w₁.WF)
    {F : Region} (hF : F.Same w₁ w₂) (hd : F.slice d) (hp : ∀ a < w₁.nPrep, F.prep a) (hi : ∀ a < w₁.nIss, F.iss a)
    (hv : ∀ a < w₁.nSieve, F.sieve a) (g : Grows w₁ w₂) : DeepCopyOf K w s w₂ d := by
  refine ⟨⟨h.new.1, h.new.2.trans_le g.slice⟩, ?_, ?_, ?_, ?_, ?_⟩
  · rw [hF.slice d hd]
    refine forall₂_imp_mem h.preps fun a _ b hb => ⟨⟨hb.1.1, hb.1.2.trans_le g.prep⟩, ?_⟩
    rw [hF.prep b (hp b hb.1.2), hb.2]
  · rw [hF.slice d hd]
    refine forall₂_imp_mem h.iss fun a _ b hb => ⟨⟨hb.1.1, hb.1.2.trans_le g.iss⟩, ?_⟩
    rw [hF.iss b (hi b hb.1.2)]; exact hb.2
  · rw [hF.slice d hd]
    refine forall₂_imp_mem h.sieves fun a _ b hb => ⟨⟨hb.1.1, hb.1.2.trans_le g.sieve⟩, ?_⟩
    rw [hF.sieve b (hv b hb.1.2)]; exact hb.2
  · rw [hF.slice d hd]; exact h.sample
  · rw [hF.slice d hd]; exact h.unfitted

theorem DeepCopyOf.rebase {K : Sem R P I W S V} {w₀ w w' : World R P I W S} {s d : ℕ} (h : DeepCopyOf K w s w' d) (hw₀ : w₀.WF)
    (hs : s < w₀.nSlice) {F : Region} (hF : F.Same w₀ w) (hS : F.HasSlice w₀ s) (g : Grows w₀ w) : DeepCopyOf K w₀ s w' d := by
  have hsl := hF.slice s hS.slice
  refine ⟨⟨g.slice.trans h.new.1, h.new.2⟩, ?_, ?_, ?_, ?_, h.unfitted⟩
  · rw [← hsl]
    refine forall₂_imp_mem h.preps fun a ha b hb => ⟨⟨g.prep.trans hb.1.1, hb.1.2⟩, ?_⟩
    rw [hsl] at ha
    rw [hb.2, hF.prep a (hS.preps a ha)]
  · rw [← hsl]
    refine forall₂_imp_mem h.iss fun a ha b hb => ⟨⟨g.iss.trans hb.1.1, hb.1.2⟩, ?_, ?_⟩
    · rw [hsl] at ha
      rw [hb.2.1, hF.iss a (hS.iss a ha).1]
    · rw [hsl] at ha
      rw [← hb.2.2, issAt_eq (hF.iss a (hS.iss a ha).1) (hF.words _ (hS.iss a ha).2)]
  · rw [← hsl]
    refine forall₂_imp_mem h.sieves fun a ha b hb => ⟨⟨g.sieve.trans hb.1.1, hb.1.2⟩, ?_⟩
    rw [hsl] at ha
    rw [← hb.2, hF.sieve a (hS.sieves a ha)]
  · rw [h.sample, hsl]

/-- All objects that exist but the fruits. -/
def Region.noFruits (w : World R P I W S) : Region where
  prep a := a < w.nPrep
  iss a := a < w.nIss
  words a := a < w.nWords
  sieve a := a < w.nSieve
  slice a := a < w.nSlice
  fruit _ := False

theorem deepPreps_fruit (K : Sem R P I W S V) (d : ℕ) : ∀ (as : List ℕ) (v : World R P I W S), (deepPreps K d as v).fruit = v.fruit ∧
    (deepPreps K d as v).nFruit = v.nFruit
  | [], _ => ⟨rfl, rfl⟩
  | a :: as, v => by rw [deepPreps]; exact deepPreps_fruit K d as _

theorem deepIss_fruit (K : Sem R P I W S V) (d : ℕ) : ∀ (as : List ℕ) (v : World R P I W S), (deepIss K d as v).2.fruit = v.fruit ∧
    (deepIss K d as v).2.nFruit = v.nFruit
  | [], _ => ⟨rfl, rfl⟩
  | a :: as, v => by
    rw [deepIss]
    rcases K.issCopy (v.issAt a).1 (v.issAt a).2 with e | i
    · exact ⟨rfl, rfl⟩
    · exact deepIss_fruit K d as _

theorem deepSieves_fruit (K : Sem R P I W S V) (d : ℕ) : ∀ (as : List ℕ) (v : World R P I W S), (deepSieves K d as v).2.fruit = v.fruit ∧
    (deepSieves K d as v).2.nFruit = v.nFruit
  | [], _ => ⟨rfl, rfl⟩
  | a :: as, v => by
    rw [deepSieves]
    rcases K.sieveCopy (v.sieve a) with e | i
    · exact ⟨rfl, rfl⟩
    · exact deepSieves_fruit K d as _

theorem sliceDeepcopy_fruit {K : Sem R P I W S V} {s d : ℕ} {w w' : World R P I W S} (h : sliceDeepcopy K s w = (.ok d, w')) :
    w'.fruit = w.fruit ∧ w'.nFruit = w.nFruit := by
  rw [sliceDeepcopy] at h
  have e1 := deepPreps_fruit K w.nSlice (w.slice s).preps w.newSlice
  have e2 := deepIss_fruit K w.nSlice (w.slice s).iss (deepPreps K w.nSlice (w.slice s).preps w.newSlice)
  rcases hm : deepIss K w.nSlice (w.slice s).iss (deepPreps K w.nSlice (w.slice s).preps w.newSlice) with ⟨e | u, w2⟩
  · rw [hm] at h; simp at h
  rw [hm] at h e2
  simp only at h e2
  have e3 := deepSieves_fruit K w.nSlice (w.slice s).sieves w2
  rcases hm2 : deepSieves K w.nSlice (w.slice s).sieves w2 with ⟨e | u, w3⟩
  · rw [hm2] at h; simp at h
  rw [hm2] at h e3
  simp only [Prod.mk.injEq] at h e3
  rw [← h.2]
  exact ⟨e3.1.trans (e2.1.trans e1.1), e3.2.trans (e2.2.trans e1.2)⟩

theorem deepSlices_spec (K : Sem R P I W S V) (f : ℕ) : ∀ (ss : List ℕ) (w w' : World R P I W S), (∀ s ∈ ss, s < w.nSlice) → w.WF →
    (w.fruit f).fitted = false → deepSlices K f ss w = (.ok (), w') →
    ∃ ds, (w'.fruit f).slices = (w.fruit f).slices ++ ds ∧ (w'.fruit f).fitted = false ∧ (w'.fruit f).name = (w.fruit f).name ∧
      List.Forall₂ (fun s d => DeepCopyOf K w s w' d) ss ds
  | [], w, w', _, _, hf, hd => by
    simp only [deepSlices, Prod.mk.injEq, true_and] at hd; subst hd; exact ⟨[], by simp, hf, rfl, List.Forall₂.nil⟩
  | s :: ss, w, w', h, hw, hf, hd => by
    rw [deepSlices] at hd
    have hs := h s (List.mem_cons_self ..)
    rcases hm : sliceDeepcopy K s w with ⟨e | d, w1⟩
    · rw [hm] at hd; simp at hd
    rw [hm] at hd
    simp only at hd
    obtain ⟨hc, hdd, hwords, hcount⟩ := sliceDeepcopy_spec hw hs hm
    set w2 := fruitCut f d w1 with hw2
    let A : Touch → Prop := fun l => l = .none ∨ l = .slice w.nSlice ∨ l = .fruit f
    have h01 : Steps K (fun _ => True) A w w1 := by
      have := sliceDeepcopy_steps K (B := fun _ => True) s w hs hw (A := A) (Or.inl rfl) (Or.inr (Or.inl rfl)) fun _ _ => trivial
      rw [hm] at this; exact this
    have h02 : Steps K (fun _ => True) A w w2 :=
      h01.tail (Or.inr (Or.inr rfl)) (Micro.cut _ f d (by omega) trivial)
    have hw2wf := h02.wf hw
    let A' : Touch → Prop := fun l => l = .none ∨ (∃ t, w2.nSlice ≤ t ∧ l = .slice t) ∨ l = .fruit f
    have h2' : Steps K (fun _ => True) A' w2 w' := by
      have := deepSlices_steps K (B := fun _ => True) f w2.nSlice (A := A') (Or.inl rfl) (fun t ht => Or.inr (Or.inl ⟨t, ht, rfl⟩))
        (Or.inr (Or.inr rfl)) ss w2 (fun t ht => (h t (List.mem_cons_of_mem _ ht)).trans_le h02.grows.slice) le_rfl hw2wf
        fun _ _ => trivial
      rw [hd] at this; exact this
    let F : Region := Region.noFruits w2
    have hF : F.Same w2 w' := by
      refine h2'.same ?_ ⟨fun _ h => h, fun _ h => h, fun _ h => h, fun _ h => h, fun _ h => h, fun _ h => h.elim⟩
      rintro l (rfl | ⟨t, ht, rfl⟩ | rfl)
      · exact fun h => h
      · exact fun hF => absurd hF (by simp only [Region.Written, F, Region.noFruits]; omega)
      · exact fun hF => hF
    let G : Region := Region.noFruits w
    have hG : G.Same w w2 := by
      refine h02.same ?_ ⟨fun _ h => h, fun _ h => h, fun _ h => h, fun _ h => h, fun _ h => h, fun _ h => h.elim⟩
      rintro l (rfl | rfl | rfl)
      · exact fun h => h
      · exact fun hF => absurd hF (by simp only [Region.Written, G, Region.noFruits]; omega)
      · exact fun hF => hF
    obtain ⟨ds, e1, e2, e3, e4⟩ := deepSlices_spec K f ss w2 w' (fun t ht => (h t (List.mem_cons_of_mem _ ht)).trans_le h02.grows.slice)
      hw2wf (by simp [hw2, fruitCut, World.setFruit]) hd
    have hfr : w1.fruit = w.fruit := (sliceDeepcopy_fruit hm).1
    refine ⟨d :: ds, ?_, e2, ?_, List.Forall₂.cons ?_ ?_⟩
    · rw [e1]; simp [hw2, fruitCut, World.setFruit, hfr]
    · rw [e3]; simp [hw2, fruitCut, World.setFruit, hfr]
    · have hcd : DeepCopyOf K w s w2 d := ⟨hc.new, hc.preps, hc.iss, hc.sieves, hc.sample, hc.unfitted⟩
      exact hcd.extend hw2wf hF (show d < w2.nSlice from hc.new.2) (fun _ h => h) (fun _ h => h) (fun _ h => h) h2'.grows
    · refine forall₂_imp_mem e4 fun t ht b hb => ?_
      have htw := h t (List.mem_cons_of_mem _ ht)
      exact hb.rebase hw htw hG ⟨htw, hw.preps t htw, fun a ha => ⟨hw.iss t htw a ha, hw.words a (hw.iss t htw a ha)⟩,
        hw.sieves t htw⟩ h02.grows

theorem deepSlices_count (K : Sem R P I W S V) (f : ℕ) : ∀ (ss : List ℕ) (w w' : World R P I W S), deepSlices K f ss w = (.ok (), w') →
    w'.nFruit = w.nFruit
  | [], w, w', h => by simp only [deepSlices, Prod.mk.injEq, true_and] at h; rw [h]
  | s :: ss, w, w', h => by
    rw [deepSlices] at h
    rcases hm : sliceDeepcopy K s w with ⟨e | d, w1⟩
    · rw [hm] at h; simp at h
    rw [hm] at h
    simp only at h
    exact (deepSlices_count K f ss _ w' h).trans (sliceDeepcopy_fruit hm).2

/-- What `Fruit.deepcopy` does: the copy has deep copies of the slices of the original in the same order and is not fitted. -/
structure DeepFruitOf (K : Sem R P I W S V) (w : World R P I W S) (f : ℕ) (w' : World R P I W S) (g : ℕ) : Prop where
  new : w.nFruit ≤ g ∧ g < w'.nFruit
  name : (w'.fruit g).name = (w.fruit f).name ++ " (Deepcopy)".toList
  slices : List.Forall₂ (fun s d => DeepCopyOf K w s w' d) (w.fruit f).slices (w'.fruit g).slices
  unfitted : (w'.fruit g).fitted = false

theorem fruitDeepcopy_spec {K : Sem R P I W S V} {f g : ℕ} {w w' : World R P I W S} (hw : w.WF) (hf : f < w.nFruit)
    (h : fruitDeepcopy K f w = (.ok g, w')) : DeepFruitOf K w f w' g := by
  rw [fruitDeepcopy] at h
  set w0 := w.newFruit ((w.fruit f).name ++ " (Deepcopy)".toList) with hw0
  rcases hm : deepSlices K w.nFruit (w.fruit f).slices w0 with ⟨e | u, w1⟩
  · rw [hm] at h; simp at h
  rw [hm] at h
  simp only [Prod.mk.injEq, Except.ok.injEq] at h
  obtain ⟨rfl, rfl⟩ := h
  have h0 : Steps K (fun _ => True) (fun l => l = .none) w w0 := Steps.one rfl (Micro.newFruit w _)
  have hww := h0.wf hw
  have hnew : w0.fruit w.nFruit = { name := (w.fruit f).name ++ " (Deepcopy)".toList } := by
    simp [hw0, World.newFruit, World.setFruit]
  obtain ⟨ds, e1, e2, e3, e4⟩ := deepSlices_spec K w.nFruit (w.fruit f).slices w0 w1
    (fun s hs => hw.slices f hf s hs) hww (by rw [hnew]) hm
  have hcnt := deepSlices_count K w.nFruit (w.fruit f).slices w0 w1 hm
  have hn0 : w0.nFruit = w.nFruit + 1 := rfl
  refine ⟨⟨le_rfl, by omega⟩, by rw [e3, hnew], ?_, e2⟩
  rw [e1, hnew]
  exact forall₂_imp_mem e4 fun a _ b hb => ⟨hb.new, hb.preps, hb.iss, hb.sieves, hb.sample, hb.unfitted⟩

/-- **C79** for `Fruit.deepcopy()`, all but the words: the copy has deep copies of the slices of the original in the same order and is
not fitted.  After any history of calls that do not touch the objects that existed before the copy was made, the original (and every
other fruit that existed) transforms data and names features as before the copy was made; and after any history of calls that do not
touch the objects made by the deep copy and their words, the copy transforms data and names features as right after it was made.

Missing: as in `C79_slice_deepcopy_partial`. -/
theorem C79_fruit_deepcopy_partial {K : Sem R P I W S V} {ρ : ℕ → Rng R} {w w₁ : World R P I W S} (hw : w.WF) {f g : ℕ}
    (hf : f < w.nFruit) (h : fruitDeepcopy K f w = (.ok g, w₁)) :
    DeepFruitOf K w f w₁ g ∧
    (∀ ops w₂, Hist K ρ w₁ ops w₂ → (∀ o ∈ ops, o.Avoids (Region.all w)) → ∀ k < w.nFruit,
      (∀ n C X, fruitTransform K w₂ n k C X = fruitTransform K w n k C X) ∧
      ∀ v l i, fruitLabel K w₂ v l k i = fruitLabel K w v l k i) ∧
    (∀ ops w₂, Hist K ρ w₁ ops w₂ → (∀ o ∈ ops, o.Avoids (Region.created w w₁)) →
      (∀ n C X, fruitTransform K w₂ n g C X = fruitTransform K w₁ n g C X) ∧
      ∀ v l i, fruitLabel K w₂ v l g i = fruitLabel K w₁ v l g i) := by
  have hc := fruitDeepcopy_spec hw hf h
  have hst := step_steps K ρ (.fruitDeepcopy f) w hf hw
  have hw1 : (step K ρ (.fruitDeepcopy f) w).2 = w₁ := by simp only [step, Res.void, h]
  rw [hw1] at hst
  have hold : (Region.all w).Same w w₁ := hst.same_old fun l hl => hl.elim id fun hl => hl.elim
  refine ⟨hc, ?_, ?_⟩
  · intro ops w₂ hist ha k hk
    have hsep := hst.separated_old fun r hr => hr.elim id fun hr => hr.elim
    have hframe := hist.frame (hst.wf hw) (all_inside hst.grows) hsep ha
    have hsame := hold.trans hframe.1
    have hv : SameFruit w w₂ k := ⟨hsame.fruit k hk, fun s hs => hsame.view (Region.all_slice hw (hw.slices k hk s hs))⟩
    refine ⟨fun n C X => fruitTransform_congr K hv n C X, fun v l i => ?_⟩
    rw [fruitLabel, fruitLabel, hv.1, labelLoop_congr K v l _ i hv.2]
  · intro ops w₂ hist ha
    have hframe := hist.frame (hst.wf hw) (created_inside (hst.wf hw)) (separated_new hw hold) ha
    have hv : SameFruit w₁ w₂ g := ⟨hframe.1.fruit g hc.new,
      forall₂_right hc.slices fun _ d hd => hframe.1.view hd.inside⟩
    refine ⟨fun n C X => fruitTransform_congr K hv n C X, fun v l i => ?_⟩
    rw [fruitLabel, fruitLabel, hv.1, labelLoop_congr K v l _ i hv.2]

end Fruits
