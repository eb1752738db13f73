import Verif.Props.Fruit3

/-! # Copies and bookkeeping of slices (properties C80, C81, C87), frames -/

namespace Fruits
set_option linter.unusedSectionVars false

variable {R P I W S V : Type} [Field R] [LinearOrder R] [FloorRing R]

/-! ### Frames: what is not written stays as it is -/

theorem Micro.slice_eq {K : Sem R P I W S V} {B : Ref → Prop} {l : Touch} {w w' : World R P I W S} (h : Micro K B l w w') {s : ℕ} (hs : s < w.nSlice)
    (h1 : l ≠ .slice s) (h2 : l ≠ .fit s) : w'.slice s = w.slice s := by
  have upd : ∀ (t : ℕ) (o : SliceObj R S), t ≠ s → Function.update w.slice t o s = w.slice s := fun t o ht =>
    Function.update_of_ne (Ne.symm ht) _ _
  cases h with
  | newSlice => exact upd _ _ (by omega)
  | addPrep _ t a => exact upd _ _ fun h => h1 (by rw [h])
  | addIss _ t a => exact upd _ _ fun h => h1 (by rw [h])
  | addSieve _ t a => exact upd _ _ fun h => h1 (by rw [h])
  | clearPreps _ t => exact upd _ _ fun h => h1 (by rw [h])
  | clearIss _ t => exact upd _ _ fun h => h1 (by rw [h])
  | clearSieves _ t => exact upd _ _ fun h => h1 (by rw [h])
  | setSample _ t k => exact upd _ _ fun h => h1 (by rw [h])
  | fitDone _ t => exact upd _ _ fun h => h2 (by rw [h])
  | fitExt _ t => exact upd _ _ fun h => h2 (by rw [h])
  | _ => rfl

theorem Micro.prep_eq {K : Sem R P I W S V} {B : Ref → Prop} {l : Touch} {w w' : World R P I W S} (h : Micro K B l w w') {a : ℕ} (ha : a < w.nPrep)
    (h1 : l ≠ .prep a) : w'.prep a = w.prep a := by
  cases h with
  | newPrep _ p => exact Function.update_of_ne (by omega) _ _
  | prepFit _ b p => exact Function.update_of_ne (fun h => h1 (by rw [h])) _ _
  | _ => rfl

theorem Micro.iss_eq {K : Sem R P I W S V} {B : Ref → Prop} {l : Touch} {w w' : World R P I W S} (h : Micro K B l w w') {a : ℕ} (ha : a < w.nIss)
    (h1 : l ≠ .iss a) (h2 : l ≠ .edit a) : w'.iss a = w.iss a := by
  cases h with
  | newIss _ i ws => exact Function.update_of_ne (by omega) _ _
  | issFit _ b p => exact Function.update_of_ne (fun h => h1 (by rw [h])) _ _
  | editIss _ b p => exact Function.update_of_ne (fun h => h2 (by rw [h])) _ _
  | _ => rfl

theorem Micro.words_eq {K : Sem R P I W S V} {B : Ref → Prop} {l : Touch} {w w' : World R P I W S} (h : Micro K B l w w') {a : ℕ} (ha : a < w.nWords)
    (h1 : l ≠ .words a) : w'.words a = w.words a := by
  cases h with
  | newWords _ p => exact Function.update_of_ne (by omega) _ _
  | editWords _ b p => exact Function.update_of_ne (fun h => h1 (by rw [h])) _ _
  | _ => rfl

theorem Micro.sieve_eq {K : Sem R P I W S V} {B : Ref → Prop} {l : Touch} {w w' : World R P I W S} (h : Micro K B l w w') {a : ℕ} (ha : a < w.nSieve)
    (h1 : l ≠ .sieve a) : w'.sieve a = w.sieve a := by
  cases h with
  | newSieve _ p => exact Function.update_of_ne (by omega) _ _
  | sieveFit _ b p => exact Function.update_of_ne (fun h => h1 (by rw [h])) _ _
  | _ => rfl

theorem Micro.fruit_eq {K : Sem R P I W S V} {B : Ref → Prop} {l : Touch} {w w' : World R P I W S} (h : Micro K B l w w') {f : ℕ} (hf : f < w.nFruit)
    (h1 : l ≠ .fruit f) : w'.fruit f = w.fruit f := by
  cases h with
  | newFruit _ p => exact Function.update_of_ne (by omega) _ _
  | cut _ b p => exact Function.update_of_ne (fun h => h1 (by rw [h])) _ _
  | switch _ b p => exact Function.update_of_ne (fun h => h1 (by rw [h])) _ _
  | setFitted _ b p => exact Function.update_of_ne (fun h => h1 (by rw [h])) _ _
  | _ => rfl

section
variable {K : Sem R P I W S V} {B : Ref → Prop} {A : Touch → Prop} {w w' : World R P I W S} (h : Steps K B A w w')
include h

theorem Steps.slice_eq {s : ℕ} (hs : s < w.nSlice) (h1 : ¬ A (.slice s)) (h2 : ¬ A (.fit s)) : w'.slice s = w.slice s := by
  induction h with
  | refl => rfl
  | tail h' hl hm ih =>
    rw [hm.slice_eq (hs.trans_le h'.grows.slice) (fun hc => h1 (hc ▸ hl)) (fun hc => h2 (hc ▸ hl)), ih]

theorem Steps.prep_eq {a : ℕ} (ha : a < w.nPrep) (h1 : ¬ A (.prep a)) : w'.prep a = w.prep a := by
  induction h with
  | refl => rfl
  | tail h' hl hm ih => rw [hm.prep_eq (ha.trans_le h'.grows.prep) (fun hc => h1 (hc ▸ hl)), ih]

theorem Steps.iss_eq {a : ℕ} (ha : a < w.nIss) (h1 : ¬ A (.iss a)) (h2 : ¬ A (.edit a)) : w'.iss a = w.iss a := by
  induction h with
  | refl => rfl
  | tail h' hl hm ih =>
    rw [hm.iss_eq (ha.trans_le h'.grows.iss) (fun hc => h1 (hc ▸ hl)) (fun hc => h2 (hc ▸ hl)), ih]

theorem Steps.words_eq {a : ℕ} (ha : a < w.nWords) (h1 : ¬ A (.words a)) : w'.words a = w.words a := by
  induction h with
  | refl => rfl
  | tail h' hl hm ih => rw [hm.words_eq (ha.trans_le h'.grows.words) (fun hc => h1 (hc ▸ hl)), ih]

theorem Steps.sieve_eq {a : ℕ} (ha : a < w.nSieve) (h1 : ¬ A (.sieve a)) : w'.sieve a = w.sieve a := by
  induction h with
  | refl => rfl
  | tail h' hl hm ih => rw [hm.sieve_eq (ha.trans_le h'.grows.sieve) (fun hc => h1 (hc ▸ hl)), ih]

theorem Steps.fruit_eq {f : ℕ} (hf : f < w.nFruit) (h1 : ¬ A (.fruit f)) : w'.fruit f = w.fruit f := by
  induction h with
  | refl => rfl
  | tail h' hl hm ih => rw [hm.fruit_eq (hf.trans_le h'.grows.fruit) (fun hc => h1 (hc ▸ hl)), ih]

end

/-! ### C81: clear -/

/-- **C81.**  Whatever happened before, after `clear()` the slice is like a new `FruitSlice()`: no seeds, no fitted sieves, not
fitted, `fit_sample_size = 1`; nothing else has changed. -/
theorem C81_clear_resets (K : Sem R P I W S V) (ρ : ℕ → Rng R) (w : World R P I W S) (s : ℕ) :
    (step K ρ (.clear s) w).1 = .ok () ∧
    (step K ρ (.clear s) w).2.slice s = (step K ρ .newSlice w).2.slice w.nSlice ∧
    (∀ t ≠ s, (step K ρ (.clear s) w).2.slice t = w.slice t) ∧
    (step K ρ (.clear s) w).2 = { w with slice := (step K ρ (.clear s) w).2.slice } := by
  refine ⟨rfl, ?_, ?_, rfl⟩
  · simp [step, sliceClear, sliceSetSample, sliceClearSieves, sliceClearIss, sliceClearPreps, World.setSlice, World.newSlice]
  · intro t ht
    simp [step, sliceClear, sliceSetSample, sliceClearSieves, sliceClearIss, sliceClearPreps, World.setSlice,
      Function.update_of_ne ht]

/-- A new slice: what `FruitSlice()` sets, `fruit.py:308-322`. -/
theorem C81_new_slice (w : World R P I W S) : (w.newSlice.slice w.nSlice).preps = [] ∧ (w.newSlice.slice w.nSlice).iss = [] ∧
    (w.newSlice.slice w.nSlice).sieves = [] ∧ (w.newSlice.slice w.nSlice).ext = [] ∧ (w.newSlice.slice w.nSlice).fitted = false ∧
    (w.newSlice.slice w.nSlice).sample = .int 1 := by
  simp [World.newSlice, World.setSlice]

/-! ### C80: copies -/

theorem sliceAdd_append (s : ℕ) : ∀ (as bs : List (Arg P S)) (w w' : World R P I W S), sliceAdd s as w = (.ok (), w') →
    sliceAdd s (as ++ bs) w = sliceAdd s bs w'
  | [], bs, w, w', h => by simp [sliceAdd] at h; rw [h]; rfl
  | .prep a :: as, bs, w, w', h => sliceAdd_append s as bs _ w' h
  | .iss a :: as, bs, w, w', h => sliceAdd_append s as bs _ w' h
  | .sieve a :: as, bs, w, w', h => sliceAdd_append s as bs _ w' h
  | .prepClass a :: as, bs, w, w', h => sliceAdd_append s as bs _ w' h
  | .sieveClass a :: as, bs, w, w', h => sliceAdd_append s as bs _ w' h
  | .bad e :: as, bs, w, w', h => by simp [sliceAdd] at h

theorem setSlice_self (w : World R P I W S) (s : ℕ) : w.setSlice s (w.slice s) = w := by
  simp [World.setSlice]

theorem setSlice_setSlice (w : World R P I W S) (s : ℕ) (o o' : SliceObj R S) : (w.setSlice s o).setSlice s o' = w.setSlice s o' := by
  simp [World.setSlice]

theorem setSlice_slice (w : World R P I W S) (s : ℕ) (o : SliceObj R S) : (w.setSlice s o).slice s = o := by simp [World.setSlice]

theorem sliceAdd_preps (d : ℕ) : ∀ (as : List ℕ) (w : World R P I W S), (w.slice d).fitted = false →
    sliceAdd d (as.map (Arg.prep (P := P) (S := S))) w = (.ok (), w.setSlice d { w.slice d with preps := (w.slice d).preps ++ as })
  | [], w, _ => by simp only [List.map_nil, sliceAdd, List.append_nil]; exact congrArg _ (setSlice_self w d).symm
  | a :: as, w, h => by
    rw [List.map_cons, sliceAdd, sliceAdd_preps d as _ (by simp [sliceAddPrep, setSlice_slice])]
    simp [sliceAddPrep, setSlice_slice, setSlice_setSlice, h]

theorem sliceAdd_isss (d : ℕ) : ∀ (as : List ℕ) (w : World R P I W S), (w.slice d).fitted = false →
    sliceAdd d (as.map (Arg.iss (P := P) (S := S))) w = (.ok (), w.setSlice d { w.slice d with iss := (w.slice d).iss ++ as })
  | [], w, _ => by simp only [List.map_nil, sliceAdd, List.append_nil]; exact congrArg _ (setSlice_self w d).symm
  | a :: as, w, h => by
    rw [List.map_cons, sliceAdd, sliceAdd_isss d as _ (by simp [sliceAddIss, setSlice_slice])]
    simp [sliceAddIss, setSlice_slice, setSlice_setSlice, h]

theorem sliceAdd_sieves (d : ℕ) : ∀ (as : List ℕ) (w : World R P I W S), (w.slice d).fitted = false →
    sliceAdd d (as.map (Arg.sieve (P := P) (S := S))) w =
      (.ok (), w.setSlice d { w.slice d with sieves := (w.slice d).sieves ++ as })
  | [], w, _ => by simp only [List.map_nil, sliceAdd, List.append_nil]; exact congrArg _ (setSlice_self w d).symm
  | a :: as, w, h => by
    rw [List.map_cons, sliceAdd, sliceAdd_sieves d as _ (by simp [sliceAddSieve, setSlice_slice])]
    simp [sliceAddSieve, setSlice_slice, setSlice_setSlice, h]

/-- What `FruitSlice.copy` does: it creates one slice with the same seed objects. -/
theorem sliceCopy_spec (s : ℕ) (w : World R P I W S) : sliceCopy s w = (.ok w.nSlice, w.newSlice.setSlice w.nSlice
    { preps := (w.slice s).preps, iss := (w.slice s).iss, sieves := (w.slice s).sieves }) := by
  have hnew : w.newSlice.slice w.nSlice = {} := by simp [World.newSlice, World.setSlice]
  rw [sliceCopy_eq]
  congr 1
  rw [seedArgs]
  rw [sliceAdd_append _ _ _ _ _ (by
      rw [sliceAdd_append _ _ _ _ _ (sliceAdd_preps w.nSlice (w.slice s).preps w.newSlice (by rw [hnew]))]
      exact sliceAdd_isss w.nSlice (w.slice s).iss _ (by rw [setSlice_slice, hnew]))]
  rw [sliceAdd_sieves _ _ _ (by rw [setSlice_slice, setSlice_slice, hnew])]
  simp only [setSlice_slice, setSlice_setSlice, hnew, List.nil_append]

/-- **C80**, the part that holds: `FruitSlice.copy()` returns a new slice with the same preparateurs, ISS and sieves (the same
objects in the same order), which is not fitted; nothing else changes.  It has `fit_sample_size = 1`, whatever the original
has (see `C80_copy_drops_sample`). -/
theorem C80_slice_copy_partial (K : Sem R P I W S V) (ρ : ℕ → Rng R) (s : ℕ) (w : World R P I W S) (hs : s < w.nSlice) :
    ∃ d w', sliceCopy s w = (.ok d, w') ∧ (step K ρ (.copy s) w) = (.ok (), w') ∧ w.nSlice ≤ d ∧ d < w'.nSlice ∧
      (w'.slice d).preps = (w.slice s).preps ∧ (w'.slice d).iss = (w.slice s).iss ∧ (w'.slice d).sieves = (w.slice s).sieves ∧
      (w'.slice d).ext = [] ∧ (w'.slice d).fitted = false ∧ (w'.slice d).sample = .int 1 ∧
      (∀ t < w.nSlice, w'.slice t = w.slice t) ∧ w'.prep = w.prep ∧ w'.iss = w.iss ∧ w'.words = w.words ∧ w'.sieve = w.sieve ∧
      w'.fruit = w.fruit := by
  refine ⟨w.nSlice, _, sliceCopy_spec s w, ?_, le_rfl, Nat.lt_succ_self _, ?_⟩
  · simp only [step, Res.void, sliceCopy_spec]; rfl
  · rw [setSlice_slice]
    refine ⟨rfl, rfl, rfl, rfl, rfl, rfl, ?_, rfl, rfl, rfl, rfl, rfl⟩
    intro t ht
    have : t ≠ w.nSlice := by omega
    simp [World.newSlice, World.setSlice, Function.update_of_ne this]

/-- **C80 is false for `fit_sample_size`**: every slice with another sample size than the default has a copy with other settings. -/
theorem C80_copy_drops_sample (s : ℕ) (w : World R P I W S) (h : (w.slice s).sample ≠ .int 1) :
    ∀ d w', sliceCopy s w = (.ok d, w') → (w'.slice d).sample ≠ (w.slice s).sample := by
  intro d w' hc
  rw [sliceCopy_spec] at hc
  simp only [Prod.mk.injEq, Except.ok.injEq] at hc
  rw [← hc.1, ← hc.2, setSlice_slice]
  exact fun h' => h h'.symm

theorem fruitCut_slice (f s : ℕ) (w : World R P I W S) : (fruitCut f s w).slice = w.slice := rfl

theorem copySlices_spec (f : ℕ) : ∀ (ss : List ℕ) (w : World R P I W S), (∀ s ∈ ss, s < w.nSlice) →
    ∃ w' ds, copySlices f ss w = (.ok (), w') ∧ (w'.fruit f).slices = (w.fruit f).slices ++ ds ∧
      (w'.fruit f).name = (w.fruit f).name ∧ (ss = [] ∧ (w'.fruit f).fitted = (w.fruit f).fitted ∨ (w'.fruit f).fitted = false) ∧
      (∀ g ≠ f, w'.fruit g = w.fruit g) ∧ (∀ t < w.nSlice, w'.slice t = w.slice t) ∧ w.nSlice ≤ w'.nSlice ∧
      w'.prep = w.prep ∧ w'.iss = w.iss ∧ w'.words = w.words ∧ w'.sieve = w.sieve ∧
      List.Forall₂ (fun s d => w.nSlice ≤ d ∧ d < w'.nSlice ∧ w'.slice d =
        { preps := (w.slice s).preps, iss := (w.slice s).iss, sieves := (w.slice s).sieves }) ss ds
  | [], w, _ => ⟨w, [], rfl, by simp, rfl, Or.inl ⟨rfl, rfl⟩, fun _ _ => rfl, fun _ _ => rfl, le_rfl, rfl, rfl, rfl, rfl,
      List.Forall₂.nil⟩
  | s :: ss, w, h => by
    rw [copySlices, sliceCopy_spec]
    simp only
    set w1 := fruitCut f w.nSlice (w.newSlice.setSlice w.nSlice
      { preps := (w.slice s).preps, iss := (w.slice s).iss, sieves := (w.slice s).sieves }) with hw1
    have hn : w1.nSlice = w.nSlice + 1 := rfl
    have hold : ∀ t < w.nSlice, w1.slice t = w.slice t := by
      intro t ht
      have : t ≠ w.nSlice := by omega
      simp [hw1, fruitCut, World.setFruit, World.newSlice, World.setSlice, Function.update_of_ne this]
    obtain ⟨w', ds, h1, h2, h3, h4, h5, h6, h7, h8, h9, h10, h11, h12⟩ := copySlices_spec f ss w1
      (fun t ht => by rw [hn]; exact Nat.lt_succ_of_lt (h t (List.mem_cons_of_mem _ ht)))
    have hf1 : w1.fruit f = { w.fruit f with slices := (w.fruit f).slices ++ [w.nSlice], cur := (w.fruit f).slices.length, fitted := false } := by
      simp [hw1, fruitCut, World.setFruit, World.newSlice, World.setSlice]
    refine ⟨w', w.nSlice :: ds, h1, ?_, ?_, Or.inr ?_, ?_, ?_, by omega, h8, h9, h10, h11, ?_⟩
    · rw [h2, hf1]; simp
    · rw [h3, hf1]
    · rcases h4 with ⟨_, h4⟩ | h4
      · rw [h4, hf1]
      · exact h4
    · intro g hg
      rw [h5 g hg]
      simp [hw1, fruitCut, World.setFruit, World.newSlice, World.setSlice, Function.update_of_ne hg]
    · intro t ht
      rw [h6 t (by omega), hold t ht]
    · refine List.Forall₂.cons ⟨le_rfl, by omega, ?_⟩ ?_
      · rw [h6 w.nSlice (by omega)]
        simp [hw1, fruitCut, World.setFruit, World.newSlice, World.setSlice]
      · have hss : ∀ t ∈ ss, t < w.nSlice := fun t ht => h t (List.mem_cons_of_mem _ ht)
        clear h1 h2 h3 h4 h
        induction h12 with
        | nil => exact List.Forall₂.nil
        | @cons t d _ _ hab _ ih =>
          refine List.Forall₂.cons ⟨by omega, hab.2.1, ?_⟩ (ih fun t ht => hss t (List.mem_cons_of_mem _ ht))
          rw [hab.2.2, hold t (hss t (List.mem_cons_self ..))]

/-- **C80** for `Fruit.copy()`, the part that holds: a new fruit, named like the original with the suffix ` (Copy)`, not fitted,
whose slices are, in order, new slices with the same seed objects as those of the original; nothing that existed changes.  The
slices have the default `fit_sample_size`. -/
theorem C80_fruit_copy_partial (K : Sem R P I W S V) (ρ : ℕ → Rng R) (f : ℕ) (w : World R P I W S) (hf : f < w.nFruit) (hw : w.WF) :
    ∃ g w', fruitCopy f w = (.ok g, w') ∧ (step K ρ (.fruitCopy f) w) = (.ok (), w') ∧ w.nFruit ≤ g ∧
      (w'.fruit g).name = (w.fruit f).name ++ " (Copy)".toList ∧ (w'.fruit g).fitted = false ∧
      (∀ h < w.nFruit, w'.fruit h = w.fruit h) ∧ (∀ t < w.nSlice, w'.slice t = w.slice t) ∧
      w'.prep = w.prep ∧ w'.iss = w.iss ∧ w'.words = w.words ∧ w'.sieve = w.sieve ∧
      List.Forall₂ (fun s d => w.nSlice ≤ d ∧ (w'.slice d).preps = (w.slice s).preps ∧ (w'.slice d).iss = (w.slice s).iss ∧
        (w'.slice d).sieves = (w.slice s).sieves ∧ (w'.slice d).fitted = false ∧ (w'.slice d).ext = [] ∧
        (w'.slice d).sample = .int 1) (w.fruit f).slices (w'.fruit g).slices := by
  obtain ⟨w', ds, h1, h2, h3, h4, h5, h6, h7, h8, h9, h10, h11, h12⟩ := copySlices_spec w.nFruit (w.fruit f).slices
    (w.newFruit ((w.fruit f).name ++ " (Copy)".toList)) (hw.slices f hf)
  have hnew : (w.newFruit ((w.fruit f).name ++ " (Copy)".toList)).fruit w.nFruit = { name := (w.fruit f).name ++ " (Copy)".toList } := by
    simp [World.newFruit, World.setFruit]
  have hc : fruitCopy f w = (.ok w.nFruit, w') := by rw [fruitCopy, h1]
  refine ⟨w.nFruit, w', hc, ?_, le_rfl, ?_, ?_, ?_, h6, h8, h9, h10, h11, ?_⟩
  · simp only [step, Res.void, hc]; rfl
  · rw [h3, hnew]
  · rcases h4 with ⟨_, h4⟩ | h4
    · rw [h4, hnew]
    · exact h4
  · intro h hh
    have hne : h ≠ w.nFruit := by omega
    rw [h5 h hne]
    simp [World.newFruit, World.setFruit, Function.update_of_ne hne]
  · rw [h2, hnew, List.nil_append]
    exact h12.imp fun s d hd => by
      rw [hd.2.2]; exact ⟨hd.1, rfl, rfl, rfl, rfl, rfl, rfl⟩

/-! ### C87: the current slice -/

/-- **C87.**  After any history the current slice of every fruit exists: `get_slice()` only raises for a fruit without slices. -/
theorem C87_current_slice_valid {K : Sem R P I W S V} {ρ : ℕ → Rng R} {w₀ w : World R P I W S} {ops : List (Op R P I W S)}
    (hist : Hist K ρ w₀ ops w) (h0 : w₀.Empty) {f : ℕ} (hf : f < w.nFruit) (hne : (w.fruit f).slices ≠ []) :
    ∃ s, currentSlice w f = .ok s ∧ s ∈ (w.fruit f).slices ∧ s < w.nSlice := by
  have hw := hist.wf (World.WF.empty h0)
  rcases hw.cur f hf with h | ⟨h, _⟩
  · refine ⟨(w.fruit f).slices[(w.fruit f).cur], ?_, List.getElem_mem h, hw.slices f hf _ (List.getElem_mem h)⟩
    rw [currentSlice, List.getElem?_eq_getElem h]
  · exact absurd h hne

/-- **C87.**  `cut(slice)` appends that slice and selects it; `cut()` appends and selects a new empty slice.  Other fruits keep
their slices. -/
theorem C87_cut (K : Sem R P I W S V) (ρ : ℕ → Rng R) (w : World R P I W S) (f s : ℕ) :
    (step K ρ (.cut f (some s)) w).1 = .ok () ∧
    ((step K ρ (.cut f (some s)) w).2.fruit f).slices = (w.fruit f).slices ++ [s] ∧
    currentSlice (step K ρ (.cut f (some s)) w).2 f = .ok s ∧
    (step K ρ (.cut f none) w).1 = .ok () ∧
    ((step K ρ (.cut f none) w).2.fruit f).slices = (w.fruit f).slices ++ [w.nSlice] ∧
    currentSlice (step K ρ (.cut f none) w).2 f = .ok w.nSlice ∧
    (step K ρ (.cut f none) w).2.slice w.nSlice = {} ∧
    (∀ g ≠ f, (step K ρ (.cut f (some s)) w).2.fruit g = w.fruit g ∧ (step K ρ (.cut f none) w).2.fruit g = w.fruit g) := by
  refine ⟨rfl, ?_, ?_, rfl, ?_, ?_, ?_, ?_⟩
  · simp [step, fruitCut, World.setFruit]
  · simp [step, fruitCut, World.setFruit, currentSlice]
  · simp [step, fruitCutNew, fruitCut, World.setFruit, World.newSlice, World.setSlice]
  · simp [step, fruitCutNew, fruitCut, World.setFruit, currentSlice, World.newSlice, World.setSlice]
  · simp [step, fruitCutNew, fruitCut, World.setFruit, World.newSlice, World.setSlice]
  · intro g hg
    simp [step, fruitCutNew, fruitCut, World.setFruit, World.newSlice, World.setSlice, Function.update_of_ne hg]

/-- **C87.**  `copycut()` appends a new slice behind the existing ones and selects it, if it does not raise; the slices that
existed are not changed. -/
theorem C87_copycut {K : Sem R P I W S V} {ρ : ℕ → Rng R} {w : World R P I W S} (hw : w.WF) {f : ℕ} (hf : f < w.nFruit)
    (h : (step K ρ (.copycut f) w).1 = .ok ()) :
    ((step K ρ (.copycut f) w).2.fruit f).slices = (w.fruit f).slices ++ [w.nSlice] ∧
    currentSlice (step K ρ (.copycut f) w).2 f = .ok w.nSlice ∧ ∀ t < w.nSlice, (step K ρ (.copycut f) w).2.slice t = w.slice t := by
  have hst := step_steps K ρ (.copycut f) w hf hw
  refine ⟨?_, ?_, fun t ht => hst.slice_eq ht ?_ ?_⟩
  · simp only [step, fruitCopycut] at h ⊢
    rcases hc : currentSlice w f with e | s
    · rw [hc] at h; simp at h
    rw [hc] at h
    have hs : s < w.nSlice := by
      rw [currentSlice] at hc
      rcases hg : (w.fruit f).slices[(w.fruit f).cur]? with _ | t
      · rw [hg] at hc; simp at hc
      · rw [hg] at hc; cases hc; exact hw.slices f hf s (List.mem_of_getElem? hg)
    have hd := sliceDeepcopy_steps K (B := fun _ => True) s w hs hw (A := fun l => l = .none ∨ l = .slice w.nSlice) (Or.inl rfl)
      (Or.inr rfl) (fun _ _ => trivial)
    simp only at h ⊢
    rcases hm : sliceDeepcopy K s w with ⟨e | d, w'⟩
    · rw [hm] at h; simp at h
    rw [hm] at hd
    have := sliceDeepcopy_ok hm
    subst this
    have hff : w'.fruit f = w.fruit f := hd.fruit_eq hf (by simp)
    simp [fruitCut, World.setFruit, hff]
  · simp only [step, fruitCopycut] at h ⊢
    rcases hc : currentSlice w f with e | s
    · rw [hc] at h; simp at h
    rw [hc] at h
    simp only at h ⊢
    rcases hm : sliceDeepcopy K s w with ⟨e | d, w'⟩
    · rw [hm] at h; simp at h
    have := sliceDeepcopy_ok hm
    subst this
    simp [fruitCut, World.setFruit, currentSlice]
  · rintro (h | h)
    · have h : w.nSlice ≤ t := h
      omega
    · simp [Op.Writes] at h
  · rintro (h | h)
    · exact h
    · simp [Op.Writes] at h

/-- **C87.**  `switch_slice(i)` selects slice number `i` for `0 ≤ i < len(slices)`, and raises `IndexError` without changing
anything for all other numbers. -/
theorem C87_switch (K : Sem R P I W S V) (ρ : ℕ → Rng R) (w : World R P I W S) (f : ℕ) (i : ℤ) :
    (∀ h : 0 ≤ i ∧ i.toNat < (w.fruit f).slices.length,
      (step K ρ (.switch f i) w).1 = .ok () ∧ currentSlice (step K ρ (.switch f i) w).2 f = .ok (w.fruit f).slices[i.toNat] ∧
      ((step K ρ (.switch f i) w).2.fruit f).slices = (w.fruit f).slices) ∧
    (¬ (0 ≤ i ∧ i.toNat < (w.fruit f).slices.length) → step K ρ (.switch f i) w = (.error .indexError, w)) := by
  have hiff : (0 ≤ i ∧ i.toNat < (w.fruit f).slices.length) ↔ (0 ≤ i ∧ i < ((w.fruit f).slices.length : ℤ)) := by omega
  constructor
  · intro h
    have h' := hiff.1 h
    simp only [step, fruitSwitch, if_pos h']
    refine ⟨trivial, ?_, ?_⟩
    · simp [World.setFruit, currentSlice, List.getElem?_eq_getElem h.2]
    · simp [World.setFruit]
  · intro h
    simp only [step, fruitSwitch, if_neg (fun h' => h (hiff.2 h'))]

/-- **C87.**  `add` puts the seeds into the current slice; on a fruit without slices it first creates one.  In both cases the
slice belongs to the fruit, and a slice of the fruit stays current. -/
theorem C87_add {K : Sem R P I W S V} {ρ : ℕ → Rng R} {w : World R P I W S} (hw : w.WF) {f : ℕ} (hf : f < w.nFruit)
    (args : List (Arg P S)) (hl : ∀ x ∈ args, x.Live w) :
    ∃ s, currentSlice (step K ρ (.fruitAdd f args) w).2 f = .ok s ∧
      ((w.fruit f).slices = [] → s = w.nSlice ∧ ((step K ρ (.fruitAdd f args) w).2.fruit f).slices = [s] ∧
        (step K ρ (.fruitAdd f args) w).2.slice s = (sliceAdd s args (fruitCutNew f w)).2.slice s) ∧
      ((w.fruit f).slices ≠ [] → currentSlice w f = .ok s ∧
        ((step K ρ (.fruitAdd f args) w).2.fruit f).slices = (w.fruit f).slices ∧
        (step K ρ (.fruitAdd f args) w).2.slice s = (sliceAdd s args w).2.slice s) := by
  by_cases he : (w.fruit f).slices = []
  · have hen : ensureSlice f w = fruitCutNew f w := by rw [ensureSlice, if_pos he]
    have hff : (fruitCutNew f w).fruit f = { w.fruit f with slices := [w.nSlice], cur := 0, fitted := false } := by
      simp [fruitCutNew, fruitCut, World.setFruit, World.newSlice, World.setSlice, he]
    have hc : currentSlice (fruitCutNew f w) f = .ok w.nSlice := by simp [currentSlice, hff]
    have hst := sliceAdd_steps K (B := fun _ => True) w.nSlice args (fruitCutNew f w) (fun x hx => by
      have := hl x hx; cases x <;> exact this) (fun x _ => by cases x <;> trivial) (fun _ _ => trivial)
    have hfr : (sliceAdd w.nSlice args (fruitCutNew f w)).2.fruit f = (fruitCutNew f w).fruit f := hst.fruit_eq hf (by simp)
    refine ⟨w.nSlice, ?_, fun _ => ?_, fun h => absurd he h⟩
    · simp only [step, fruitAdd, hen, hc]
      rcases hm : sliceAdd w.nSlice args (fruitCutNew f w) with ⟨e | u, w'⟩
      · rw [hm] at hfr; simp only at hfr ⊢; rw [currentSlice, hfr, hff]; rfl
      · rw [hm] at hfr; simp only at hfr ⊢; simp [currentSlice, World.setFruit, hfr, hff]
    · simp only [step, fruitAdd, hen, hc]
      rcases hm : sliceAdd w.nSlice args (fruitCutNew f w) with ⟨e | u, w'⟩
      · rw [hm] at hfr; simp only at hfr ⊢; rw [hfr, hff]; simp
      · rw [hm] at hfr; simp only at hfr ⊢; simp [World.setFruit, hfr, hff]
  · have hen : ensureSlice f w = w := by rw [ensureSlice, if_neg he]
    obtain ⟨s, hc⟩ : ∃ s, currentSlice w f = .ok s := by
      rcases hw.cur f hf with h | ⟨h, _⟩
      · exact ⟨_, by rw [currentSlice, List.getElem?_eq_getElem h]⟩
      · exact absurd h he
    have hst := sliceAdd_steps K (B := fun _ => True) s args w hl (fun x _ => by cases x <;> trivial) (fun _ _ => trivial)
    have hfr : (sliceAdd s args w).2.fruit f = w.fruit f := hst.fruit_eq hf (by simp)
    refine ⟨s, ?_, fun h => absurd h he, fun _ => ⟨hc, ?_⟩⟩
    · have hc' := hc
      rw [currentSlice] at hc'
      simp only [step, fruitAdd, hen, hc]
      rcases hm : sliceAdd s args w with ⟨e | u, w'⟩
      · rw [hm] at hfr; simp only at hfr ⊢; rw [currentSlice, hfr]; exact hc'
      · rw [hm] at hfr; simp only at hfr ⊢
        simp only [currentSlice, World.setFruit, Function.update_self, hfr]; exact hc'
    · simp only [step, fruitAdd, hen, hc]
      rcases hm : sliceAdd s args w with ⟨e | u, w'⟩
      · rw [hm] at hfr; simp only at hfr ⊢; rw [hfr]; simp
      · rw [hm] at hfr; simp only at hfr ⊢; simp [World.setFruit, hfr]

end Fruits
