import Verif.Props.FruitInv

/-! # Histories of calls (properties C73, C76, C80, C81, C87) -/

namespace Fruits
set_option linter.unusedSectionVars false

variable {R P I W S V : Type} [Field R] [LinearOrder R] [FloorRing R]

/-! ### C73: the fitted sieves fit to the layout -/

/-- Copying and fitting a sieve does not change its number of features and whether it has to be fitted. -/
structure Sem.KeepsN (K : Sem R P I W S V) : Prop where
  copy : ∀ v c, K.sieveCopy v = .ok c → K.sieveN c = K.sieveN v
  fit : ∀ g v C X v', K.sieveFit g v C X = .ok v' → K.sieveN v' = K.sieveN v
  requires : ∀ g v C X v', K.sieveFit g v C X = .ok v' → K.sieveRequires v' = K.sieveRequires v

/-- Properties of sieves that fitting does not change are only changed by configuring the slice. -/
theorem Micro.sieves {K : Sem R P I W S V} {B : Ref → Prop} {α : Type} (q : S → α)
    (hq : ∀ g v C X v', K.sieveFit g v C X = .ok v' → q v' = q v) {l : Touch} {w w' : World R P I W S} (h : Micro K B l w w')
    (hw : w.WF) {s : ℕ} (hs : s < w.nSlice) (hl : l ≠ .slice s) :
    ((w'.slice s).sieves.map fun a => q (w'.sieve a)) = (w.slice s).sieves.map fun a => q (w.sieve a) := by
  rw [(h.conf hs hl).2.2.1]
  apply List.map_congr_left
  intro a ha
  have hlt := hw.sieves s hs a ha
  cases h with
  | newSieve _ v =>
    show q (Function.update w.sieve w.nSieve v a) = _
    rw [Function.update_of_ne (by omega)]
  | sieveFit _ b v g C X hf =>
    show q (Function.update w.sieve b v a) = _
    by_cases hab : a = b
    · subst hab; rw [Function.update_self]; exact hq g _ C X v hf
    · rw [Function.update_of_ne hab]
  | _ => rfl

/-- What is known about the sieves made by `fit`: if there are any, then some sieve of the slice has to be fitted, and as
long as the slice counts as fitted they have the numbers of features of the sieves of the slice. -/
def ExtInv (K : Sem R P I W S V) (w : World R P I W S) : Prop :=
  ∀ s < w.nSlice, ((w.slice s).ext = [] ∨ anyRequires K w s = true) ∧
    ((w.slice s).fitted = true →
      ∀ row ∈ (w.slice s).ext, row.map K.sieveN = (w.slice s).sieves.map fun a => K.sieveN (w.sieve a))

theorem anyRequires_eq (K : Sem R P I W S V) (w : World R P I W S) (s : ℕ) :
    anyRequires K w s = ((w.slice s).sieves.map fun a => K.sieveRequires (w.sieve a)).any id := by
  rw [anyRequires, List.any_map]; rfl

theorem copies_sieveN {K : Sem R P I W S V} (hK : K.KeepsN) : ∀ {l cs : List S}, l.mapM K.sieveCopy = .ok cs →
    cs.map K.sieveN = l.map K.sieveN := by
  intro l cs h
  rw [mapM_ok_iff] at h
  induction h with
  | nil => rfl
  | cons hab _ ih => rw [List.map_cons, List.map_cons, ih, hK.copy _ _ hab]

theorem fits_sieveN {K : Sem R P I W S V} (hK : K.KeepsN) {cs row : List S}
    (h : List.Forall₂ (fun c v => ∃ g C X, K.sieveFit g c C X = .ok v) cs row) : row.map K.sieveN = cs.map K.sieveN := by
  induction h with
  | nil => rfl
  | cons hab _ ih =>
    obtain ⟨g, C, X, hab⟩ := hab
    rw [List.map_cons, List.map_cons, ih, hK.fit _ _ _ _ _ hab]

/-- Except for fitting a slice, nothing adds fitted sieves or makes a slice count as fitted. -/
theorem Micro.unfit {K : Sem R P I W S V} {B : Ref → Prop} {l : Touch} {w w' : World R P I W S} (h : Micro K B l w w') {s : ℕ} (hs : s < w.nSlice)
    (hl : l ≠ .fit s) :
    (w'.slice s).ext = [] ∧ (w'.slice s).fitted = false ∨
    (w'.slice s).ext = (w.slice s).ext ∧ (w'.slice s).fitted = false ∧ (∀ a ∈ (w.slice s).sieves, a ∈ (w'.slice s).sieves) ∨
    (w'.slice s).ext = (w.slice s).ext ∧ (w'.slice s).fitted = (w.slice s).fitted ∧ (w'.slice s).sieves = (w.slice s).sieves := by
  have upd : ∀ (t : ℕ) (o : SliceObj R S), (t = s → (o.ext = [] ∧ o.fitted = false ∨
      o.ext = (w.slice s).ext ∧ o.fitted = false ∧ (∀ a ∈ (w.slice s).sieves, a ∈ o.sieves) ∨
      o.ext = (w.slice s).ext ∧ o.fitted = (w.slice s).fitted ∧ o.sieves = (w.slice s).sieves)) →
      ((Function.update w.slice t o s).ext = [] ∧ (Function.update w.slice t o s).fitted = false ∨
      (Function.update w.slice t o s).ext = (w.slice s).ext ∧ (Function.update w.slice t o s).fitted = false ∧
        (∀ a ∈ (w.slice s).sieves, a ∈ (Function.update w.slice t o s).sieves) ∨
      (Function.update w.slice t o s).ext = (w.slice s).ext ∧ (Function.update w.slice t o s).fitted = (w.slice s).fitted ∧
        (Function.update w.slice t o s).sieves = (w.slice s).sieves) := by
    intro t o ho
    by_cases hts : s = t
    · subst hts; simpa using ho rfl
    · rw [Function.update_of_ne hts]; exact Or.inr (Or.inr ⟨rfl, rfl, rfl⟩)
  cases h with
  | newSlice => exact upd _ _ fun h => absurd h (by omega)
  | addPrep _ t a => exact upd _ _ fun h => by subst h; exact Or.inr (Or.inl ⟨rfl, rfl, fun a ha => ha⟩)
  | addIss _ t a => exact upd _ _ fun h => by subst h; exact Or.inr (Or.inl ⟨rfl, rfl, fun a ha => ha⟩)
  | addSieve _ t a =>
    exact upd _ _ fun h => by subst h; exact Or.inr (Or.inl ⟨rfl, rfl, fun a ha => List.mem_append_left _ ha⟩)
  | clearPreps _ t => exact upd _ _ fun h => by subst h; exact Or.inr (Or.inl ⟨rfl, rfl, fun a ha => ha⟩)
  | clearIss _ t => exact upd _ _ fun h => by subst h; exact Or.inl ⟨rfl, rfl⟩
  | clearSieves _ t => exact upd _ _ fun h => by subst h; exact Or.inl ⟨rfl, rfl⟩
  | setSample _ t k => exact upd _ _ fun h => by subst h; exact Or.inr (Or.inr ⟨rfl, rfl, rfl⟩)
  | fitDone _ t => exact upd _ _ fun h => absurd (by rw [h]) hl
  | fitExt _ t => exact upd _ _ fun h => absurd (by rw [h]) hl
  | _ => exact Or.inr (Or.inr ⟨rfl, rfl, rfl⟩)

theorem anyRequires_mono {K : Sem R P I W S V} {B : Ref → Prop} (hK : K.KeepsN) {l : Touch} {w w' : World R P I W S} (h : Micro K B l w w')
    (hw : w.WF) {s : ℕ} (hs : s < w.nSlice) (hsub : ∀ a ∈ (w.slice s).sieves, a ∈ (w'.slice s).sieves)
    (hr : anyRequires K w s = true) : anyRequires K w' s = true := by
  simp only [anyRequires, List.any_eq_true] at hr ⊢
  obtain ⟨a, ha, hra⟩ := hr
  refine ⟨a, hsub a ha, ?_⟩
  have hlt := hw.sieves s hs a ha
  cases h with
  | newSieve _ v =>
    show K.sieveRequires (Function.update w.sieve w.nSieve v a) = true
    rw [Function.update_of_ne (by omega)]; exact hra
  | sieveFit _ b v g C X hf =>
    show K.sieveRequires (Function.update w.sieve b v a) = true
    by_cases hab : a = b
    · subst hab; rw [Function.update_self, hK.requires g _ C X v hf]; exact hra
    · rw [Function.update_of_ne hab]; exact hra
  | _ => exact hra

theorem ExtInv.micro {K : Sem R P I W S V} {B : Ref → Prop} (hK : K.KeepsN) {l : Touch} {w w' : World R P I W S} (h : Micro K B l w w')
    (hw : w.WF) (hi : ExtInv K w) : ExtInv K w' := by
  intro s hs'
  by_cases hs : s < w.nSlice
  swap
  · -- a new slice
    cases h with
    | newSlice =>
      have : s = w.nSlice := by have : s < w.nSlice + 1 := hs'; omega
      subst this
      have he : (w.newSlice.slice w.nSlice) = {} := by simp [World.newSlice, World.setSlice]
      rw [he]
      exact ⟨Or.inl rfl, fun h => by simp at h⟩
    | _ => exact absurd hs' hs
  by_cases hl : l = .fit s
  · subst hl
    cases h with
    | fitDone _ _ hr _ =>
      have he : (w.setSlice s { w.slice s with fitted := true }).slice s = { w.slice s with fitted := true } := by
        simp [World.setSlice]
      have hext : (w.slice s).ext = [] := by
        rcases (hi s hs).1 with h | h
        · exact h
        · rw [hr] at h; simp at h
      rw [he]
      exact ⟨Or.inl hext, fun _ row hrow => by rw [hext] at hrow; simp at hrow⟩
    | fitExt _ _ rows b hr hb hrows _ =>
      have he : (w.setSlice s { w.slice s with ext := rows, fitted := b }).slice s = { w.slice s with ext := rows, fitted := b } := by
        simp [World.setSlice]
      refine ⟨Or.inr ?_, ?_⟩
      · rw [anyRequires, he]; exact hr
      · rw [he]
        intro _ row hrow
        obtain ⟨cs, h1, h2⟩ := hrows row hrow
        rw [fits_sieveN hK h2, copies_sieveN hK h1, List.map_map]
        rfl
  · rcases h.unfit hs hl with ⟨h1, h2⟩ | ⟨h1, h2, h3⟩ | ⟨h1, h2, h3⟩
    · rw [h1, h2]; exact ⟨Or.inl rfl, fun h => by simp at h⟩
    · rw [h2]
      refine ⟨?_, fun h => by simp at h⟩
      rcases (hi s hs).1 with h4 | h4
      · exact Or.inl (by rw [h1, h4])
      · exact Or.inr (anyRequires_mono hK h hw hs h3 h4)
    · refine ⟨?_, ?_⟩
      · rcases (hi s hs).1 with h4 | h4
        · exact Or.inl (by rw [h1, h4])
        · exact Or.inr (anyRequires_mono hK h hw hs (by rw [h3]; exact fun a ha => ha) h4)
      · rw [h1, h2]
        intro hfit row hrow
        rw [(hi s hs).2 hfit row hrow, h3]
        apply List.map_congr_left
        intro a ha
        have hlt := hw.sieves s hs a ha
        cases h with
        | newSieve _ v =>
          show _ = K.sieveN (Function.update w.sieve w.nSieve v a)
          rw [Function.update_of_ne (by omega)]
        | sieveFit _ b v g C X hf =>
          show _ = K.sieveN (Function.update w.sieve b v a)
          by_cases hab : a = b
          · subst hab; rw [Function.update_self, hK.fit g _ C X v hf]
          · rw [Function.update_of_ne hab]
        | _ => rfl

theorem ExtInv.hist {K : Sem R P I W S V} (hK : K.KeepsN) {ρ : ℕ → Rng R} {w₀ w : World R P I W S} {ops : List (Op R P I W S)}
    (h : Hist K ρ w₀ ops w) (h0 : w₀.Empty) : ExtInv K w :=
  h.invariant (fun _ _ _ _ hm hw hi => ExtInv.micro hK hm hw hi) (World.WF.empty h0) (fun s hs => by
    obtain ⟨_, _, _, _, h5, _⟩ := h0; omega)

theorem slicesLoop_fitted {K : Sem R P I W S V} {w : World R P I W S} {n : ℕ} {C X : Data R} : ∀ (ss : List ℕ) (D : List (List V))
    (k : ℤ) {D' : List (List V)} {tr : Trace R V}, slicesLoop K w n C X ss D k = (.ok D', tr) →
    ∀ s ∈ ss, (w.slice s).fitted = true
  | [], _, _, _, _, _ => by simp
  | s :: ss, D, k, D', tr, h => by
    rw [slicesLoop] at h
    rcases hN : sliceN K w s with e | N
    · rw [hN] at h; simp at h
    rw [hN] at h
    simp only at h
    rcases hA : sliceTransform K w n s C X with ⟨e | A, tr1⟩
    · rw [hA] at h; simp at h
    rw [hA] at h
    simp only at h
    rcases hD : setCols D k (k + N) A with e | D1
    · rw [hD] at h; simp at h
    rw [hD] at h
    simp only [Prod.mk.injEq] at h
    intro t ht
    rcases List.mem_cons.1 ht with rfl | ht
    · rw [sliceTransform] at hA
      by_cases hf : (w.slice t).fitted = true
      · exact hf
      · rw [if_neg hf] at hA; simp at hA
    · exact slicesLoop_fitted ss D1 (k + N) (tr := (slicesLoop K w n C X ss D1 (k + N)).2) (Prod.ext h.1 rfl) t ht

/-- `Fruit.transform` only returns something if the fruit and all slices count as fitted. -/
theorem fruitTransform_fitted {K : Sem R P I W S V} {w : World R P I W S} {n f : ℕ} {C X : Data R} {A : List (List V)}
    {tr : Trace R V} (h : fruitTransform K w n f C X = (.ok A, tr)) :
    (w.fruit f).fitted = true ∧ ∀ s ∈ (w.fruit f).slices, (w.slice s).fitted = true := by
  rw [fruitTransform] at h
  by_cases hf : (w.fruit f).fitted = true
  swap
  · rw [if_neg hf] at h; simp at h
  rw [if_pos hf] at h
  refine ⟨hf, ?_⟩
  rcases hD : (fruitN K w f >>= zerosE K X.length) with e | D
  · rw [hD] at h; simp at h
  rw [hD] at h
  simp only at h
  rcases hl : slicesLoop K w n C X (w.fruit f).slices D 0 with ⟨e | B, tr'⟩
  · rw [hl] at h; simp at h
  · exact slicesLoop_fitted _ _ _ hl

/-- **C73.**  After any history of calls, a successful `Fruit.transform(X)` returns one row per series with `nfeatures()`
columns.  `columns` lists what the columns are: for each slice in order, for each iterated sum in order (tuples of word
numbers, in lexicographic order), for each sieve in order, its features; and column `c` of series `i` holds the value
`colValue` of the corresponding sieve (the one fitted for that iterated sum, if there is one) applied to that iterated sum
of the prepared data, passed through `np.nan_to_num`. -/
theorem C73_layout {K : Sem R P I W S V} (hK : K.KeepsRows) (hC : K.CountsRight) (hN : K.KeepsN) {ρ : ℕ → Rng R}
    {w₀ w : World R P I W S} {ops : List (Op R P I W S)} (hist : Hist K ρ w₀ ops w) (h0 : w₀.Empty) {f : ℕ} (hf : f < w.nFruit)
    (hpos : ∀ s ∈ (w.fruit f).slices, ∀ a ∈ (w.slice s).sieves, 0 ≤ K.sieveN (w.sieve a))
    {n : ℕ} {C X : Data R} (hCX : C.length = X.length) {A : List (List V)} {tr : Trace R V} (h : fruitTransform K w n f C X = (.ok A, tr)) :
    ∃ cols : List Col, columns K w f = .ok cols ∧ fruitN K w f = .ok (cols.length : ℤ) ∧ A.length = X.length ∧
      ∀ i < X.length, (A.getD i []).length = cols.length ∧
        (A.getD i []).map some = cols.map fun c => (colValue K w C X i c).map K.post := by
  have hwf := hist.wf (World.WF.empty h0)
  have hfit := fruitTransform_fitted h
  have hext := ExtInv.hist hN hist h0
  obtain ⟨_, cols, As, h1, h2, _, h4, _, h6, _, _⟩ := fruitTransform_spec hK hC
    (fun s hs => ⟨hpos s hs, (hext s (hwf.slices f hf s hs)).2 (hfit.2 s hs)⟩) hCX h
  refine ⟨cols, h1, h2, h4, fun i hi => ⟨?_, h6 i hi⟩⟩
  have := congrArg List.length (h6 i hi)
  simpa using this

/-- **C82**, without the arguments of `on_sieve`.  In a successful `Fruit.transform(X, callbacks)` after any history every
callback receives, slice by slice, the calls listed in `sliceEvents`: `on_next_slice`, one `on_preparateur` per preparateur with
its output, `on_preparation_end` with the prepared data, per iterated sum one `on_iterated_sum` with it and one `on_sieve` per
sieve, and `on_sieving_end` with the features of that slice.  The argument of `on_sieve` is not the sieve's columns
(see `C82_on_sieve_rows`). -/
theorem C82_callbacks_partial {K : Sem R P I W S V} (hK : K.KeepsRows) (hC : K.CountsRight) (hN : K.KeepsN) {ρ : ℕ → Rng R}
    {w₀ w : World R P I W S} {ops : List (Op R P I W S)} (hist : Hist K ρ w₀ ops w) (h0 : w₀.Empty) {f : ℕ} (hf : f < w.nFruit)
    (hpos : ∀ s ∈ (w.fruit f).slices, ∀ a ∈ (w.slice s).sieves, 0 ≤ K.sieveN (w.sieve a))
    {n : ℕ} {C X : Data R} (hCX : C.length = X.length) {A : List (List V)} {tr : Trace R V} (h : fruitTransform K w n f C X = (.ok A, tr)) :
    ∃ As : List (List (List V)), List.Forall₂ (fun s B => (sliceTransform K w n s C X).1 = .ok B) (w.fruit f).slices As ∧
      (∀ i < X.length, A.getD i [] = (As.flatMap fun B => B.getD i []).map K.post) ∧
      (∀ s ∈ (w.fruit f).slices, (stages K w C (w.slice s).preps X).length = (w.slice s).preps.length) ∧
      ∀ j < n, (seenBy j tr).map Event.erase = (List.zip (w.fruit f).slices As).flatMap fun p => sliceEvents K w C X p.1 p.2 := by
  have hwf := hist.wf (World.WF.empty h0)
  have hfit := fruitTransform_fitted h
  have hext := ExtInv.hist hN hist h0
  obtain ⟨_, cols, As, h1, h2, h3, h4, h5, h6, h7, h8⟩ := fruitTransform_spec hK hC
    (fun s hs => ⟨hpos s hs, (hext s (hwf.slices f hf s hs)).2 (hfit.2 s hs)⟩) hCX h
  exact ⟨As, h3, h5, h8, h7⟩

/-! ### C76: transform needs fit -/

/-- `add` with these arguments changes the slice: the first argument is a seed. -/
def configuring : List (Arg P S) → Prop
  | [] => False
  | .bad _ :: _ => False
  | _ :: _ => True

/-- The calls that change which seeds a slice has (`FruitSlice.add`, `clear…`, `Fruit.add` while it is the current slice). -/
def Op.Configures (w : World R P I W S) (s : ℕ) : Op R P I W S → Prop
  | .add s' args => s' = s ∧ configuring args
  | .clearPreps s' | .clearIss s' | .clearSieves s' | .clear s' => s' = s
  | .fruitAdd f args => currentSlice w f = .ok s ∧ configuring args
  | _ => False

/-- The call is a fit of the slice that succeeds: `slice.fit`, or `fruit.fit` that gets past this slice. -/
def FitsSlice (K : Sem R P I W S V) (ρ : ℕ → Rng R) (w : World R P I W S) (s : ℕ) : Op R P I W S → Prop
  | .fit s' C X => s' = s ∧ (sliceFit K ρ s (cacheInput C X) X w).1 = .ok ()
  | .fruitFit f C X => ∃ before after w', (w.fruit f).slices = before ++ s :: after ∧
      fitSlices K ρ (cacheInput C X) X before w = (.ok (), w') ∧ (sliceFit K ρ s (cacheInput C X) X w').1 = .ok ()
  | _ => False

/-- In the history some call fitted the slice successfully, and no later call changed its seeds. -/
inductive FittedSince (K : Sem R P I W S V) (ρ : ℕ → Rng R) (w₀ : World R P I W S) (s : ℕ) : List (Op R P I W S) → Prop
  | fit {ops : List (Op R P I W S)} {w : World R P I W S} (o : Op R P I W S) :
      Hist K ρ w₀ ops w → FitsSlice K ρ w s o → FittedSince K ρ w₀ s (ops ++ [o])
  | keep {ops : List (Op R P I W S)} {w : World R P I W S} (o : Op R P I W S) :
      FittedSince K ρ w₀ s ops → Hist K ρ w₀ ops w → ¬ o.Configures w s → FittedSince K ρ w₀ s (ops ++ [o])

theorem sliceAdd_unfitted {s : ℕ} : ∀ (args : List (Arg P S)) (w : World R P I W S), (w.slice s).fitted = false →
    ((sliceAdd s args w).2.slice s).fitted = false
  | [], _, h => h
  | .prep a :: as, w, _ => sliceAdd_unfitted as _ (by simp [sliceAddPrep, World.setSlice])
  | .iss a :: as, w, _ => sliceAdd_unfitted as _ (by simp [sliceAddIss, World.setSlice])
  | .sieve a :: as, w, _ => sliceAdd_unfitted as _ (by simp [sliceAddSieve, World.setSlice])
  | .prepClass p :: as, w, _ => sliceAdd_unfitted as _ (by simp [sliceAddPrep, World.setSlice])
  | .sieveClass v :: as, w, _ => sliceAdd_unfitted as _ (by simp [sliceAddSieve, World.setSlice])
  | .bad _ :: _, _, h => h

theorem sliceAdd_configuring {s : ℕ} {args : List (Arg P S)} {w : World R P I W S} (hc : configuring args) :
    ((sliceAdd s args w).2.slice s).fitted = false := by
  rcases args with _ | ⟨a, as⟩
  · exact hc.elim
  · cases a with
    | prep a => exact sliceAdd_unfitted as _ (by simp [sliceAddPrep, World.setSlice])
    | iss a => exact sliceAdd_unfitted as _ (by simp [sliceAddIss, World.setSlice])
    | sieve a => exact sliceAdd_unfitted as _ (by simp [sliceAddSieve, World.setSlice])
    | prepClass a => exact sliceAdd_unfitted as _ (by simp [sliceAddPrep, World.setSlice])
    | sieveClass a => exact sliceAdd_unfitted as _ (by simp [sliceAddSieve, World.setSlice])
    | bad e => exact hc.elim

/-- A slice that was not fitted stays so unless its fitted state is written. -/
theorem Steps.fitted {K : Sem R P I W S V} {B : Ref → Prop} {A : Touch → Prop} {w w' : World R P I W S} (h : Steps K B A w w') {s : ℕ}
    (hA : ¬ A (.fit s)) (hw : w.WF) (hfit : (w'.slice s).fitted = true) (hs' : s < w'.nSlice) :
    s < w.nSlice ∧ (w.slice s).fitted = true := by
  induction h with
  | refl => exact ⟨hs', hfit⟩
  | @tail w₁ w₂ l h1 hl hm ih =>
    by_cases hs : s < w₁.nSlice
    · refine ih ?_ hs
      rcases hm.unfit hs (fun hc => hA (hc ▸ hl)) with ⟨_, h2⟩ | ⟨_, h2, _⟩ | ⟨_, h2, _⟩
      · rw [h2] at hfit; simp at hfit
      · rw [h2] at hfit; simp at hfit
      · rw [← h2]; exact hfit
    · exfalso
      cases hm with
      | newSlice =>
        have : s = w₁.nSlice := by have : s < w₁.nSlice + 1 := hs'; omega
        subst this
        simp [World.newSlice, World.setSlice] at hfit
      | _ => exact hs hs'

theorem sliceFit_fitted {K : Sem R P I W S V} {ρ : ℕ → Rng R} {s t : ℕ} {C X : Data R} {w : World R P I W S} (hs : s < w.nSlice)
    (hw : w.WF) (hfit : ((sliceFit K ρ t C X w).2.slice s).fitted = true) :
    (w.slice s).fitted = true ∨ (t = s ∧ (sliceFit K ρ t C X w).1 = .ok ()) := by
  by_cases hts : t = s
  swap
  · left
    have h := sliceFit_steps K (B := fun _ => True) ρ t C X w
    exact (h.fitted (fun hc => hts hc.symm) hw hfit (hs.trans_le h.grows.slice)).2
  subst hts
  rcases hr : (sliceFit K ρ t C X w).1 with e | u
  swap
  · exact Or.inr ⟨rfl, rfl⟩
  left
  -- a failed fit leaves the flag as it was
  rw [sliceFit] at hfit hr
  by_cases h1 : (w.slice t).iss = []
  · rw [if_pos h1] at hfit; exact hfit
  rw [if_neg h1] at hfit hr
  by_cases h2 : (w.slice t).sieves = []
  · rw [if_pos h2] at hfit; exact hfit
  rw [if_neg h2] at hfit hr
  rcases hsel : selectSample (ρ w.rnd) (w.slice t).sample X with e' | D
  · rw [hsel] at hfit; exact hfit
  rw [hsel] at hfit hr
  simp only at hfit hr
  let A : Touch → Prop := fun l => l = .none ∨ (∃ a, l = .prep a) ∨ ∃ a, l = .iss a
  have hA : A .none := Or.inl rfl
  have hnA : ¬ A (.fit t) := by simp [A]
  have hp := (tick_steps K (B := fun _ => True) hA w).trans (fitPreps_steps K ρ C hA (w.slice t).preps D w.tick (fun a _ => Or.inr (Or.inl ⟨a, rfl⟩)))
  rcases hm : fitPreps K ρ C (w.slice t).preps D w.tick with ⟨e' | Y, w1⟩
  · rw [hm] at hfit hp; exact (hp.fitted hnA hw hfit (hs.trans_le hp.grows.slice)).2
  rw [hm] at hfit hp hr
  simp only at hfit hp hr
  have hi := hp.trans (fitIss_steps K ρ C Y hA (w.slice t).iss w1 (fun a _ => Or.inr (Or.inr ⟨a, rfl⟩)))
  rcases hm2 : fitIss K ρ C Y (w.slice t).iss w1 with ⟨e' | u, w2⟩
  · rw [hm2] at hfit hi; exact (hi.fitted hnA hw hfit (hs.trans_le hi.grows.slice)).2
  rw [hm2] at hfit hi hr
  simp only at hfit hi hr
  rw [fitFinish] at hfit hr
  by_cases hreq : anyRequires K w2 t = true
  swap
  · rw [if_neg hreq] at hr; simp at hr
  rw [if_pos hreq] at hfit hr
  rcases hm3 : fitItems K ρ C ((w2.slice t).sieves.map w2.sieve) (iterateIss K C ((w2.slice t).iss.map w2.issAt) Y).1
        (iterateIss K C ((w2.slice t).iss.map w2.issAt) Y).2 w2.rnd with ⟨⟨rows, _ | e'⟩, r⟩
  · rw [hm3] at hr; simp at hr
  · rw [hm3] at hfit
    have : ((w2.slice t).fitted) = true := by simpa [World.setSlice] using hfit
    exact (hi.fitted hnA hw this (hs.trans_le hi.grows.slice)).2

theorem fitSlices_fitted {K : Sem R P I W S V} {ρ : ℕ → Rng R} {s : ℕ} {C X : Data R} : ∀ (ss : List ℕ) (w : World R P I W S),
    s < w.nSlice → w.WF → ((fitSlices K ρ C X ss w).2.slice s).fitted = true →
    (w.slice s).fitted = true ∨ ∃ before after w', ss = before ++ s :: after ∧ fitSlices K ρ C X before w = (.ok (), w') ∧
      (sliceFit K ρ s C X w').1 = .ok ()
  | [], w, _, _, h => Or.inl h
  | t :: ss, w, hs, hw, h => by
    have hst := sliceFit_steps K (B := fun _ => True) ρ t C X w
    rw [fitSlices] at h
    have key := sliceFit_fitted (K := K) (ρ := ρ) (t := t) (C := C) (X := X) hs hw
    rcases hm : sliceFit K ρ t C X w with ⟨e | u, w1⟩
    · rw [hm] at h key
      rcases key h with h1 | ⟨_, h1⟩
      · exact Or.inl h1
      · simp at h1
    · rw [hm] at h hst key
      simp only at h
      rcases fitSlices_fitted ss w1 (hs.trans_le hst.grows.slice) (hst.wf hw) h with h1 | ⟨b, a, w', h1, h2, h3⟩
      · rcases key h1 with h2 | ⟨rfl, _⟩
        · exact Or.inl h2
        · exact Or.inr ⟨[], ss, w, rfl, rfl, by rw [hm]⟩
      · refine Or.inr ⟨t :: b, a, w', by rw [h1]; rfl, ?_, h3⟩
        rw [fitSlices, hm]; exact h2

theorem currentSlice_ensure {f s : ℕ} {w : World R P I W S} (h : currentSlice (ensureSlice f w) f = .ok s) :
    (w.fruit f).slices = [] ∧ s = w.nSlice ∨ ensureSlice f w = w ∧ currentSlice w f = .ok s := by
  rw [ensureSlice] at h ⊢
  by_cases he : (w.fruit f).slices = []
  · rw [if_pos he] at h
    left
    refine ⟨he, ?_⟩
    simp only [currentSlice, fruitCutNew, fruitCut, World.newSlice, World.setSlice, World.setFruit, Function.update_self, he] at h
    simp at h; exact h.symm
  · rw [if_neg he] at h ⊢; exact Or.inr ⟨rfl, h⟩

theorem step_fitted {K : Sem R P I W S V} {ρ : ℕ → Rng R} {o : Op R P I W S} {w : World R P I W S} {s : ℕ} (hl : o.Live w) (hw : w.WF)
    (hs : s < (step K ρ o w).2.nSlice) (hfit : ((step K ρ o w).2.slice s).fitted = true) :
    FitsSlice K ρ w s o ∨ (s < w.nSlice ∧ (w.slice s).fitted = true ∧ ¬ o.Configures w s) := by
  have hsteps := step_steps K ρ o w hl hw
  have plain : ¬ o.Writes w (.fit s) → s < w.nSlice ∧ (w.slice s).fitted = true := fun hnw =>
    hsteps.fitted (A := o.Touches w) (by rintro (h | h); exact h; exact hnw h) hw hfit hs
  cases o with
  | add t args =>
    refine Or.inr ⟨(plain (by simp [Op.Writes])).1, (plain (by simp [Op.Writes])).2, ?_⟩
    rintro ⟨rfl, hc⟩
    have := sliceAdd_configuring (s := t) (w := w) hc
    simp only [step] at hfit
    rw [this] at hfit; simp at hfit
  | clearPreps t =>
    refine Or.inr ⟨(plain (by simp [Op.Writes])).1, (plain (by simp [Op.Writes])).2, ?_⟩
    intro hc
    have hc : t = s := hc
    subst hc; simp [step, sliceClearPreps, World.setSlice] at hfit
  | clearIss t =>
    refine Or.inr ⟨(plain (by simp [Op.Writes])).1, (plain (by simp [Op.Writes])).2, ?_⟩
    intro hc
    have hc : t = s := hc
    subst hc; simp [step, sliceClearIss, World.setSlice] at hfit
  | clearSieves t =>
    refine Or.inr ⟨(plain (by simp [Op.Writes])).1, (plain (by simp [Op.Writes])).2, ?_⟩
    intro hc
    have hc : t = s := hc
    subst hc; simp [step, sliceClearSieves, World.setSlice] at hfit
  | clear t =>
    refine Or.inr ⟨(plain (by simp [Op.Writes])).1, (plain (by simp [Op.Writes])).2, ?_⟩
    intro hc
    have hc : t = s := hc
    subst hc; simp [step, sliceClear, sliceSetSample, sliceClearSieves, World.setSlice] at hfit
  | fit t C X =>
    by_cases hs1 : s < w.nSlice
    · rcases sliceFit_fitted hs1 hw hfit with h | ⟨rfl, h⟩
      · exact Or.inr ⟨hs1, h, fun hc => hc⟩
      · exact Or.inl ⟨rfl, h⟩
    · refine absurd (plain ?_).1 hs1
      intro hc
      have hc : s = t := hc
      have hl : t < w.nSlice := hl
      omega
  | fruitAdd f args =>
    refine Or.inr ⟨(plain (by simp [Op.Writes])).1, (plain (by simp [Op.Writes])).2, ?_⟩
    rintro ⟨hc, hca⟩
    have hne : (w.fruit f).slices ≠ [] := by
      intro he; rw [currentSlice, he] at hc; simp at hc
    have hen : ensureSlice f w = w := by rw [ensureSlice, if_neg hne]
    have hu := sliceAdd_configuring (s := s) (w := w) hca
    simp only [step, fruitAdd, hen, hc] at hfit
    rcases hm : sliceAdd s args w with ⟨e | u, w'⟩
    · rw [hm] at hfit hu; rw [hu] at hfit; simp at hfit
    · rw [hm] at hfit hu
      have hfit : (w'.slice s).fitted = true := hfit
      rw [hu] at hfit; simp at hfit
  | fruitFit f C X =>
    by_cases hs1 : s < w.nSlice
    · have hfit' : ((fitSlices K ρ (cacheInput C X) X (w.fruit f).slices w).2.slice s).fitted = true := by
        simp only [step, fruitFit] at hfit
        rcases hm : fitSlices K ρ (cacheInput C X) X (w.fruit f).slices w with ⟨e | u, w'⟩
        · rw [hm] at hfit; exact hfit
        · rw [hm] at hfit; exact hfit
      rcases fitSlices_fitted _ w hs1 hw hfit' with h | ⟨b, a, w', h1, h2, h3⟩
      · exact Or.inr ⟨hs1, h, fun hc => hc⟩
      · exact Or.inl ⟨b, a, w', h1, h2, h3⟩
    · refine absurd (plain ?_).1 hs1
      rintro (hc | ⟨t, ht, hc⟩)
      · simp at hc
      · have hc : s = t := hc
        have := hw.slices f hl t ht
        omega
  | _ => exact Or.inr ⟨(plain (by simp [Op.Writes])).1, (plain (by simp [Op.Writes])).2, fun hc => hc⟩

/-- After any history, a slice only counts as fitted if a fit of it succeeded after the last change of its seeds. -/
theorem fitted_since {K : Sem R P I W S V} {ρ : ℕ → Rng R} {w₀ w : World R P I W S} {ops : List (Op R P I W S)}
    (hist : Hist K ρ w₀ ops w) (h0 : w₀.Empty) {s : ℕ} (hs : s < w.nSlice) (hfit : (w.slice s).fitted = true) :
    FittedSince K ρ w₀ s ops := by
  induction hist with
  | nil => obtain ⟨_, _, _, _, h5, _⟩ := h0; omega
  | snoc o hh hl ih =>
    rcases step_fitted hl (hh.wf (World.WF.empty h0)) hs hfit with h | ⟨h1, h2, h3⟩
    · exact .fit o hh h
    · exact .keep o (ih h1 h2) hh h3

/-- **C76.**  After any history of calls, on fruits and on slices directly: if `Fruit.transform` returns features, then every
slice of the fruit was successfully fitted after the last change of its seeds. -/
theorem C76_transform_needs_fit {K : Sem R P I W S V} {ρ : ℕ → Rng R} {w₀ w : World R P I W S} {ops : List (Op R P I W S)}
    (hist : Hist K ρ w₀ ops w) (h0 : w₀.Empty) {f : ℕ} (hf : f < w.nFruit) {n : ℕ} {C X : Data R} {A : List (List V)}
    {tr : Trace R V} (h : fruitTransform K w n f C X = (.ok A, tr)) :
    ∀ s ∈ (w.fruit f).slices, FittedSince K ρ w₀ s ops := fun s hs =>
  fitted_since hist h0 ((hist.wf (World.WF.empty h0)).slices f hf s hs) ((fruitTransform_fitted h).2 s hs)

/-- **C76** for a slice: `FruitSlice.transform` raises unless the slice was successfully fitted after the last change of its
seeds. -/
theorem C76_slice_transform_needs_fit {K : Sem R P I W S V} {ρ : ℕ → Rng R} {w₀ w : World R P I W S} {ops : List (Op R P I W S)}
    (hist : Hist K ρ w₀ ops w) (h0 : w₀.Empty) {s : ℕ} (hs : s < w.nSlice) (hn : ¬ FittedSince K ρ w₀ s ops) (n : ℕ)
    (C X : Data R) : (sliceTransform K w n s C X).1 = .error .runtimeError := by
  rw [sliceTransform, if_neg]
  exact fun hfit => hn (fitted_since hist h0 hs hfit)

end Fruits
