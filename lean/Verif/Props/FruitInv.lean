import Verif.Props.Fruit2

/-! # Every call is a sequence of small changes of the heap

`Micro` lists the changes that the methods of `Fruit` and `FruitSlice` make, with the object that is written.  `step_steps`
shows that every call is a sequence of them that only writes the objects in `Op.Touches`.  The invariants of all histories
follow by induction. -/

namespace Fruits
set_option linter.unusedSectionVars false

variable {R P I W S V : Type} [Field R] [LinearOrder R] [FloorRing R]

/-- The object a small change writes; `iss a` is fitting an ISS object, `edit a` changing its settings, `fit s` is the fitted
state of the slice `s`. -/
inductive Touch
  | none
  | prep (a : ℕ)
  | iss (a : ℕ)
  | edit (a : ℕ)
  | words (a : ℕ)
  | sieve (a : ℕ)
  | slice (s : ℕ)
  | fit (s : ℕ)
  | fruit (f : ℕ)

/-- An object that is put into the list of a slice or a fruit. -/
inductive Ref
  | prep (a : ℕ)
  | iss (a : ℕ)
  | sieve (a : ℕ)
  | slice (s : ℕ)

/-- A small change of the heap; all objects put into lists are in `B`. -/
inductive Micro (K : Sem R P I W S V) (B : Ref → Prop) : Touch → World R P I W S → World R P I W S → Prop
  | rnd (w : World R P I W S) (r : ℕ) : Micro K B .none w { w with rnd := r }
  | newPrep (w : World R P I W S) (p : P) : Micro K B .none w (w.newPrep p)
  | newWords (w : World R P I W S) (ws : W) : Micro K B .none w (w.newWords ws)
  | newIss (w : World R P I W S) (i : I) (ws : ℕ) : ws < w.nWords → Micro K B .none w (w.newIss i ws)
  | newSieve (w : World R P I W S) (v : S) : Micro K B .none w (w.newSieve v)
  | newSlice (w : World R P I W S) : Micro K B .none w w.newSlice
  | newFruit (w : World R P I W S) (name : PStr) : Micro K B .none w (w.newFruit name)
  | prepFit (w : World R P I W S) (a : ℕ) (p : P) (g : Rng R) (C X : Data R) : K.prepFit g (w.prep a) C X = .ok p →
      Micro K B (.prep a) w (w.setPrep a p)
  | issFit (w : World R P I W S) (a : ℕ) (i : I) (g : Rng R) (C X : Data R) :
      K.issFit g (w.issAt a).1 (w.issAt a).2 C X = .ok i → Micro K B (.iss a) w (w.setIss a i)
  | sieveFit (w : World R P I W S) (a : ℕ) (v : S) (g : Rng R) (C : Data R) (X : List (List R)) :
      K.sieveFit g (w.sieve a) C X = .ok v → Micro K B (.sieve a) w (w.setSieve a v)
  | editIss (w : World R P I W S) (a : ℕ) (i : I) : Micro K B (.edit a) w (w.setIss a i)
  | editWords (w : World R P I W S) (a : ℕ) (ws : W) : Micro K B (.words a) w (w.setWords a ws)
  | addPrep (w : World R P I W S) (s a : ℕ) : a < w.nPrep → B (.prep a) → Micro K B (.slice s) w (sliceAddPrep s a w)
  | addIss (w : World R P I W S) (s a : ℕ) : a < w.nIss → B (.iss a) → Micro K B (.slice s) w (sliceAddIss s a w)
  | addSieve (w : World R P I W S) (s a : ℕ) : a < w.nSieve → B (.sieve a) → Micro K B (.slice s) w (sliceAddSieve s a w)
  | clearPreps (w : World R P I W S) (s : ℕ) : Micro K B (.slice s) w (sliceClearPreps s w)
  | clearIss (w : World R P I W S) (s : ℕ) : Micro K B (.slice s) w (sliceClearIss s w)
  | clearSieves (w : World R P I W S) (s : ℕ) : Micro K B (.slice s) w (sliceClearSieves s w)
  | setSample (w : World R P I W S) (s : ℕ) (k : IntOrFloat R) : Micro K B (.slice s) w (sliceSetSample s k w)
  | fitDone (w : World R P I W S) (s : ℕ) : anyRequires K w s = false → (w.slice s).iss ≠ [] →
      Micro K B (.fit s) w (w.setSlice s { w.slice s with fitted := true })
  | fitExt (w : World R P I W S) (s : ℕ) (rows : List (List S)) (b : Bool) : anyRequires K w s = true →
      (b = true ∨ b = (w.slice s).fitted) →
      (∀ row ∈ rows, ∃ (cs : List S), ((w.slice s).sieves.map w.sieve).mapM K.sieveCopy = .ok cs ∧
        List.Forall₂ (fun c v => ∃ g C X, K.sieveFit g c C X = .ok v) cs row) → (w.slice s).iss ≠ [] →
      Micro K B (.fit s) w (w.setSlice s { w.slice s with ext := rows, fitted := b })
  | cut (w : World R P I W S) (f s : ℕ) : s < w.nSlice → B (.slice s) → Micro K B (.fruit f) w (fruitCut f s w)
  | switch (w : World R P I W S) (f i : ℕ) : i < (w.fruit f).slices.length →
      Micro K B (.fruit f) w (w.setFruit f { w.fruit f with cur := i })
  | setFitted (w : World R P I W S) (f : ℕ) (b : Bool) : Micro K B (.fruit f) w (w.setFruit f { w.fruit f with fitted := b })

/-- A sequence of small changes that only write objects in `A`. -/
inductive Steps (K : Sem R P I W S V) (B : Ref → Prop) (A : Touch → Prop) : World R P I W S → World R P I W S → Prop
  | refl (w : World R P I W S) : Steps K B A w w
  | tail {w w₁ w₂ : World R P I W S} {l : Touch} : Steps K B A w w₁ → A l → Micro K B l w₁ w₂ → Steps K B A w w₂

theorem Steps.one {K : Sem R P I W S V} {B : Ref → Prop} {A : Touch → Prop} {w w' : World R P I W S} {l : Touch} (hl : A l) (h : Micro K B l w w') :
    Steps K B A w w' := (Steps.refl w).tail hl h

theorem Steps.trans {K : Sem R P I W S V} {B : Ref → Prop} {A : Touch → Prop} {w w₁ w₂ : World R P I W S} (h : Steps K B A w w₁)
    (h' : Steps K B A w₁ w₂) : Steps K B A w w₂ := by
  induction h' with
  | refl => exact h
  | tail _ hl hm ih => exact ih.tail hl hm

theorem Steps.mono {K : Sem R P I W S V} {B : Ref → Prop} {A A' : Touch → Prop} (hAB : ∀ l, A l → A' l) {w w' : World R P I W S}
    (h : Steps K B A w w') : Steps K B A' w w' := by
  induction h with
  | refl => exact Steps.refl _
  | tail _ hl hm ih => exact ih.tail (hAB _ hl) hm

/-- Invariants of small changes are invariants of sequences. -/
theorem Steps.invariant {K : Sem R P I W S V} {B : Ref → Prop} {A : Touch → Prop} {Inv : World R P I W S → Prop}
    (hm : ∀ l w w', A l → Micro K B l w w' → Inv w → Inv w') {w w' : World R P I W S} (h : Steps K B A w w') (hw : Inv w) : Inv w' := by
  induction h with
  | refl => exact hw
  | tail _ hl hmic ih => exact hm _ _ _ hl hmic ih

/-! ### References exist -/

/-- All references point to existing objects, and the current slice of a fruit exists. -/
structure World.WF (w : World R P I W S) : Prop where
  preps : ∀ s < w.nSlice, ∀ a ∈ (w.slice s).preps, a < w.nPrep
  iss : ∀ s < w.nSlice, ∀ a ∈ (w.slice s).iss, a < w.nIss
  sieves : ∀ s < w.nSlice, ∀ a ∈ (w.slice s).sieves, a < w.nSieve
  words : ∀ a < w.nIss, (w.iss a).2 < w.nWords
  slices : ∀ f < w.nFruit, ∀ s ∈ (w.fruit f).slices, s < w.nSlice
  cur : ∀ f < w.nFruit, (w.fruit f).cur < (w.fruit f).slices.length ∨ ((w.fruit f).slices = [] ∧ (w.fruit f).cur = 0)

theorem World.WF.empty {w : World R P I W S} (h : w.Empty) : w.WF := by
  obtain ⟨h1, h2, h3, h4, h5, h6⟩ := h
  constructor <;> intro _ hs <;> omega

/-- The number of objects of each kind never decreases. -/
structure Grows (w w' : World R P I W S) : Prop where
  prep : w.nPrep ≤ w'.nPrep
  iss : w.nIss ≤ w'.nIss
  words : w.nWords ≤ w'.nWords
  sieve : w.nSieve ≤ w'.nSieve
  slice : w.nSlice ≤ w'.nSlice
  fruit : w.nFruit ≤ w'.nFruit

theorem Grows.refl (w : World R P I W S) : Grows w w := ⟨le_rfl, le_rfl, le_rfl, le_rfl, le_rfl, le_rfl⟩

theorem Grows.trans {w w₁ w₂ : World R P I W S} (h : Grows w w₁) (h' : Grows w₁ w₂) : Grows w w₂ :=
  ⟨h.1.trans h'.1, h.2.trans h'.2, h.3.trans h'.3, h.4.trans h'.4, h.5.trans h'.5, h.6.trans h'.6⟩

theorem Micro.grows {K : Sem R P I W S V} {B : Ref → Prop} {l : Touch} {w w' : World R P I W S} (h : Micro K B l w w') : Grows w w' := by
  cases h <;> constructor <;>
    simp [World.newPrep, World.newWords, World.newIss, World.newSieve, World.newSlice, World.newFruit, World.setPrep,
      World.setIss, World.setWords, World.setSieve, World.setSlice, World.setFruit, sliceAddPrep, sliceAddIss, sliceAddSieve,
      sliceClearPreps, sliceClearIss, sliceClearSieves, sliceSetSample, fruitCut]

theorem Steps.grows {K : Sem R P I W S V} {B : Ref → Prop} {A : Touch → Prop} {w w' : World R P I W S} (h : Steps K B A w w') : Grows w w' := by
  induction h with
  | refl => exact Grows.refl _
  | tail _ _ hm ih => exact ih.trans hm.grows

theorem mem_update_slice {w : World R P I W S} {s s' : ℕ} {o : SliceObj R S} :
    (w.setSlice s o).slice s' = if s' = s then o else w.slice s' := by
  simp [World.setSlice, Function.update_apply]

theorem World.WF.setSlice {w : World R P I W S} (h : w.WF) (s : ℕ) (o : SliceObj R S)
    (h1 : s < w.nSlice → ∀ a ∈ o.preps, a < w.nPrep) (h2 : s < w.nSlice → ∀ a ∈ o.iss, a < w.nIss)
    (h3 : s < w.nSlice → ∀ a ∈ o.sieves, a < w.nSieve) : (w.setSlice s o).WF := by
  refine ⟨?_, ?_, ?_, h.words, h.slices, h.cur⟩
  · intro s' hs' a ha
    rw [mem_update_slice] at ha
    by_cases hss : s' = s
    · subst hss; rw [if_pos rfl] at ha; exact h1 hs' a ha
    · rw [if_neg hss] at ha; exact h.preps s' hs' a ha
  · intro s' hs' a ha
    rw [mem_update_slice] at ha
    by_cases hss : s' = s
    · subst hss; rw [if_pos rfl] at ha; exact h2 hs' a ha
    · rw [if_neg hss] at ha; exact h.iss s' hs' a ha
  · intro s' hs' a ha
    rw [mem_update_slice] at ha
    by_cases hss : s' = s
    · subst hss; rw [if_pos rfl] at ha; exact h3 hs' a ha
    · rw [if_neg hss] at ha; exact h.sieves s' hs' a ha

theorem fruit_update {w : World R P I W S} {f f' : ℕ} {o : FruitObj} :
    (w.setFruit f o).fruit f' = if f' = f then o else w.fruit f' := by
  simp [World.setFruit, Function.update_apply]

theorem World.WF.setFruit {w : World R P I W S} (h : w.WF) (f : ℕ) (o : FruitObj)
    (h1 : f < w.nFruit → ∀ s ∈ o.slices, s < w.nSlice)
    (h2 : f < w.nFruit → o.cur < o.slices.length ∨ (o.slices = [] ∧ o.cur = 0)) : (w.setFruit f o).WF := by
  refine ⟨h.preps, h.iss, h.sieves, h.words, ?_, ?_⟩
  · intro f' hf' s hs
    rw [fruit_update] at hs
    by_cases hff : f' = f
    · subst hff; rw [if_pos rfl] at hs; exact h1 hf' s hs
    · rw [if_neg hff] at hs; exact h.slices f' hf' s hs
  · intro f' hf'
    rw [fruit_update]
    by_cases hff : f' = f
    · subst hff; rw [if_pos rfl]; exact h2 hf'
    · rw [if_neg hff]; exact h.cur f' hf'

/-- The heap with more room: bounds may grow. -/
theorem World.WF.wider {w w' : World R P I W S} (h : w.WF) (hs : w'.slice = w.slice) (hi : ∀ a, (w'.iss a).2 = (w.iss a).2)
    (hf : w'.fruit = w.fruit) (e1 : w'.nSlice = w.nSlice) (e2 : w'.nFruit = w.nFruit) (e3 : w'.nIss = w.nIss)
    (g : Grows w w') : w'.WF := by
  constructor
  · intro s hs' a ha; rw [hs] at ha; rw [e1] at hs'; exact (h.preps s hs' a ha).trans_le g.prep
  · intro s hs' a ha; rw [hs] at ha; rw [e1] at hs'; exact (h.iss s hs' a ha).trans_le g.iss
  · intro s hs' a ha; rw [hs] at ha; rw [e1] at hs'; exact (h.sieves s hs' a ha).trans_le g.sieve
  · intro a ha; rw [hi]; rw [e3] at ha; exact (h.words a ha).trans_le g.words
  · intro f hf' s hs'; rw [hf] at hs'; rw [e2] at hf'; exact (h.slices f hf' s hs').trans_le g.slice
  · intro f hf'; rw [hf]; rw [e2] at hf'; exact h.cur f hf'

theorem setIss_words {w : World R P I W S} (a : ℕ) (i : I) (b : ℕ) : ((w.setIss a i).iss b).2 = (w.iss b).2 := by
  simp only [World.setIss, Function.update_apply]
  by_cases h : b = a
  · subst h; simp
  · simp [h]

theorem Micro.wf {K : Sem R P I W S V} {B : Ref → Prop} {l : Touch} {w w' : World R P I W S} (h : Micro K B l w w') (hw : w.WF) : w'.WF := by
  have g := h.grows
  cases h with
  | rnd _ r => exact hw.wider rfl (fun _ => rfl) rfl rfl rfl rfl g
  | newPrep _ p => exact hw.wider rfl (fun _ => rfl) rfl rfl rfl rfl g
  | newWords _ ws => exact hw.wider rfl (fun _ => rfl) rfl rfl rfl rfl g
  | newSieve _ v => exact hw.wider rfl (fun _ => rfl) rfl rfl rfl rfl g
  | prepFit => exact hw.wider rfl (fun _ => rfl) rfl rfl rfl rfl g
  | issFit _ a i => exact hw.wider rfl (setIss_words a i) rfl rfl rfl rfl g
  | sieveFit => exact hw.wider rfl (fun _ => rfl) rfl rfl rfl rfl g
  | editIss _ a i => exact hw.wider rfl (setIss_words a i) rfl rfl rfl rfl g
  | editWords => exact hw.wider rfl (fun _ => rfl) rfl rfl rfl rfl g
  | newIss _ i ws hlt =>
    refine ⟨hw.preps, ?_, hw.sieves, ?_, hw.slices, hw.cur⟩
    · intro s hs a ha; exact (hw.iss s hs a ha).trans_le g.iss
    · intro a ha
      simp only [World.newIss] at ha ⊢
      by_cases haw : a = w.nIss
      · subst haw; simp only [Function.update_self]; exact hlt
      · rw [Function.update_of_ne haw]; exact hw.words a (by omega)
  | newSlice =>
    refine ⟨?_, ?_, ?_, hw.words, ?_, hw.cur⟩
    · intro s hs a ha
      simp only [World.newSlice, World.setSlice] at hs ha ⊢
      by_cases hsw : s = w.nSlice
      · subst hsw; simp at ha
      · rw [Function.update_of_ne hsw] at ha; exact hw.preps s (by omega) a ha
    · intro s hs a ha
      simp only [World.newSlice, World.setSlice] at hs ha ⊢
      by_cases hsw : s = w.nSlice
      · subst hsw; simp at ha
      · rw [Function.update_of_ne hsw] at ha; exact hw.iss s (by omega) a ha
    · intro s hs a ha
      simp only [World.newSlice, World.setSlice] at hs ha ⊢
      by_cases hsw : s = w.nSlice
      · subst hsw; simp at ha
      · rw [Function.update_of_ne hsw] at ha; exact hw.sieves s (by omega) a ha
    · intro f hf s hs; exact (hw.slices f hf s hs).trans_le g.slice
  | newFruit _ name =>
    refine ⟨hw.preps, hw.iss, hw.sieves, hw.words, ?_, ?_⟩
    · intro f hf s hs
      simp only [World.newFruit, World.setFruit] at hf hs ⊢
      by_cases hfw : f = w.nFruit
      · subst hfw; simp at hs
      · rw [Function.update_of_ne hfw] at hs; exact hw.slices f (by omega) s hs
    · intro f hf
      simp only [World.newFruit, World.setFruit] at hf ⊢
      by_cases hfw : f = w.nFruit
      · subst hfw; simp
      · rw [Function.update_of_ne hfw]; exact hw.cur f (by omega)
  | addPrep _ s a ha =>
    exact hw.setSlice s _ (fun hs b hb => by
      rcases List.mem_append.1 hb with hb | hb
      · exact hw.preps s hs b hb
      · rw [List.mem_singleton.1 hb]; exact ha) (hw.iss s) (hw.sieves s)
  | addIss _ s a ha =>
    exact hw.setSlice s _ (hw.preps s) (fun hs b hb => by
      rcases List.mem_append.1 hb with hb | hb
      · exact hw.iss s hs b hb
      · rw [List.mem_singleton.1 hb]; exact ha) (hw.sieves s)
  | addSieve _ s a ha =>
    exact hw.setSlice s _ (hw.preps s) (hw.iss s) (fun hs b hb => by
      rcases List.mem_append.1 hb with hb | hb
      · exact hw.sieves s hs b hb
      · rw [List.mem_singleton.1 hb]; exact ha)
  | clearPreps _ s => exact hw.setSlice s _ (fun _ b hb => by simp at hb) (hw.iss s) (hw.sieves s)
  | clearIss _ s => exact hw.setSlice s _ (hw.preps s) (fun _ b hb => by simp at hb) (hw.sieves s)
  | clearSieves _ s => exact hw.setSlice s _ (hw.preps s) (hw.iss s) (fun _ b hb => by simp at hb)
  | setSample _ s k => exact hw.setSlice s _ (hw.preps s) (hw.iss s) (hw.sieves s)
  | fitDone _ s => exact hw.setSlice s _ (hw.preps s) (hw.iss s) (hw.sieves s)
  | fitExt _ s => exact hw.setSlice s _ (hw.preps s) (hw.iss s) (hw.sieves s)
  | cut _ f s hs =>
    exact hw.setFruit f _ (fun hf b hb => by
      rcases List.mem_append.1 hb with hb | hb
      · exact hw.slices f hf b hb
      · rw [List.mem_singleton.1 hb]; exact hs) (fun _ => Or.inl (by simp))
  | switch _ f i hi => exact hw.setFruit f _ (hw.slices f) (fun _ => Or.inl hi)
  | setFitted _ f b => exact hw.setFruit f _ (hw.slices f) (hw.cur f)

theorem Steps.wf {K : Sem R P I W S V} {B : Ref → Prop} {A : Touch → Prop} {w w' : World R P I W S} (h : Steps K B A w w') (hw : w.WF) : w'.WF :=
  h.invariant (fun _ _ _ _ hm hw => hm.wf hw) hw

/-! ### Every call is a sequence of small changes -/

/-- The objects that existed before a call. -/
def Touch.Fresh (w : World R P I W S) : Touch → Prop
  | .none => True
  | .slice s => w.nSlice ≤ s
  | .fruit f => w.nFruit ≤ f
  | _ => False

/-- What fitting a slice writes. -/
def FitTouch (w : World R P I W S) (s : ℕ) : Touch → Prop
  | .none => True
  | .prep a => a ∈ (w.slice s).preps
  | .iss a => a ∈ (w.slice s).iss
  | .fit s' => s' = s
  | _ => False

/-- What a call writes, besides objects it creates. -/
def Op.Writes (w : World R P I W S) : Op R P I W S → Touch → Prop
  | .prepFit a _ _, l => l = .prep a
  | .issFit a _ _, l => l = .iss a
  | .editIss a _, l => l = .edit a
  | .sieveFit a _ _, l => l = .sieve a
  | .editWords a _, l => l = .words a
  | .add s _, l => l = .slice s
  | .clearPreps s, l | .clearIss s, l | .clearSieves s, l | .clear s, l | .setSample s _, l => l = .slice s
  | .fit s _ _, l => FitTouch w s l
  | .cut f _, l | .copycut f, l | .switch f _, l => l = .fruit f
  | .fruitAdd f _, l => l = .fruit f ∨ ∃ s, currentSlice w f = .ok s ∧ l = .slice s
  | .fruitFit f _ _, l => l = .fruit f ∨ ∃ s ∈ (w.fruit f).slices, FitTouch w s l
  | _, _ => False

/-- What a call writes. -/
def Op.Touches (w : World R P I W S) (o : Op R P I W S) (l : Touch) : Prop := l.Fresh w ∨ o.Writes w l

/-- Objects that did not exist before a call. -/
def Ref.Fresh (w : World R P I W S) : Ref → Prop
  | .prep a => w.nPrep ≤ a
  | .iss a => w.nIss ≤ a
  | .sieve a => w.nSieve ≤ a
  | .slice s => w.nSlice ≤ s

/-- The object an argument of `add` refers to is in `B`. -/
def Arg.In (B : Ref → Prop) : Arg P S → Prop
  | .prep a => B (.prep a)
  | .iss a => B (.iss a)
  | .sieve a => B (.sieve a)
  | _ => True

/-- The objects a call puts into lists, besides those it creates. -/
def Op.Mentions (w : World R P I W S) : Op R P I W S → Ref → Prop
  | .add _ args, r | .fruitAdd _ args, r =>
    (∃ a, r = .prep a ∧ Arg.prep a ∈ args) ∨ (∃ a, r = .iss a ∧ Arg.iss a ∈ args) ∨ ∃ a, r = .sieve a ∧ Arg.sieve a ∈ args
  | .copy s, r => (∃ a, r = .prep a ∧ a ∈ (w.slice s).preps) ∨ (∃ a, r = .iss a ∧ a ∈ (w.slice s).iss) ∨
      ∃ a, r = .sieve a ∧ a ∈ (w.slice s).sieves
  | .cut _ s, r => ∃ a, s = some a ∧ r = .slice a
  | .fruitCopy f, r => ∃ s ∈ (w.fruit f).slices, (∃ a, r = .prep a ∧ a ∈ (w.slice s).preps) ∨
      (∃ a, r = .iss a ∧ a ∈ (w.slice s).iss) ∨ ∃ a, r = .sieve a ∧ a ∈ (w.slice s).sieves
  | _, _ => False

/-- The objects a call puts into lists. -/
def Op.Refs (w : World R P I W S) (o : Op R P I W S) (r : Ref) : Prop := r.Fresh w ∨ o.Mentions w r

theorem Ref.Fresh.mono {w w' : World R P I W S} (g : Grows w w') {r : Ref} (h : r.Fresh w') : r.Fresh w := by
  cases r with
  | prep a => exact g.prep.trans h
  | iss a => exact g.iss.trans h
  | sieve a => exact g.sieve.trans h
  | slice a => exact g.slice.trans h

theorem sliceAdd_steps (K : Sem R P I W S V) {B : Ref → Prop} (s : ℕ) : ∀ (args : List (Arg P S)) (w : World R P I W S), (∀ x ∈ args, x.Live w) → (∀ x ∈ args, x.In B) → (∀ r : Ref, r.Fresh w → B r) →
    Steps K B (fun l => l = .none ∨ l = .slice s) w (sliceAdd s args w).2
  | [], w, _, _, _ => Steps.refl w
  | .prep a :: as, w, h, hr, hB => by
    refine ((Steps.one (A := fun l => l = .none ∨ l = .slice s) (Or.inr rfl)
      (Micro.addPrep w s a (h _ (List.mem_cons_self ..)) (hr _ (List.mem_cons_self ..)))).trans (sliceAdd_steps K s as _ ?_ (fun x hx => hr x (List.mem_cons_of_mem _ hx)) ?_))
    · intro x hx; have := h x (List.mem_cons_of_mem _ hx); cases x <;> exact this
    · intro r hr'; exact hB r (by cases r <;> exact hr')
  | .iss a :: as, w, h, hr, hB => by
    refine ((Steps.one (A := fun l => l = .none ∨ l = .slice s) (Or.inr rfl)
      (Micro.addIss w s a (h _ (List.mem_cons_self ..)) (hr _ (List.mem_cons_self ..)))).trans (sliceAdd_steps K s as _ ?_ (fun x hx => hr x (List.mem_cons_of_mem _ hx)) ?_))
    · intro x hx; have := h x (List.mem_cons_of_mem _ hx); cases x <;> exact this
    · intro r hr'; exact hB r (by cases r <;> exact hr')
  | .sieve a :: as, w, h, hr, hB => by
    refine ((Steps.one (A := fun l => l = .none ∨ l = .slice s) (Or.inr rfl)
      (Micro.addSieve w s a (h _ (List.mem_cons_self ..)) (hr _ (List.mem_cons_self ..)))).trans (sliceAdd_steps K s as _ ?_ (fun x hx => hr x (List.mem_cons_of_mem _ hx)) ?_))
    · intro x hx; have := h x (List.mem_cons_of_mem _ hx); cases x <;> exact this
    · intro r hr'; exact hB r (by cases r <;> exact hr')
  | .prepClass p :: as, w, h, hr, hB => by
    refine (((Steps.one (A := fun l => l = .none ∨ l = .slice s) (Or.inl rfl) (Micro.newPrep w p)).tail (Or.inr rfl)
      (Micro.addPrep (w.newPrep p) s w.nPrep (Nat.lt_succ_self _) (hB (.prep w.nPrep) (le_refl _)))).trans (sliceAdd_steps K s as _ ?_ (fun x hx => hr x (List.mem_cons_of_mem _ hx)) ?_))
    · intro x hx; have := h x (List.mem_cons_of_mem _ hx)
      cases x <;> first | exact this | exact Nat.lt_succ_of_lt this
    · intro r hr'; exact hB r (by cases r <;> first | exact hr' | exact le_of_lt hr')
  | .sieveClass v :: as, w, h, hr, hB => by
    refine (((Steps.one (A := fun l => l = .none ∨ l = .slice s) (Or.inl rfl) (Micro.newSieve w v)).tail (Or.inr rfl)
      (Micro.addSieve (w.newSieve v) s w.nSieve (Nat.lt_succ_self _) (hB (.sieve w.nSieve) (le_refl _)))).trans (sliceAdd_steps K s as _ ?_ (fun x hx => hr x (List.mem_cons_of_mem _ hx)) ?_))
    · intro x hx; have := h x (List.mem_cons_of_mem _ hx)
      cases x <;> first | exact this | exact Nat.lt_succ_of_lt this
    · intro r hr'; exact hB r (by cases r <;> first | exact hr' | exact le_of_lt hr')
  | .bad e :: as, w, _, _, _ => Steps.refl w

theorem tick_steps (K : Sem R P I W S V) {B : Ref → Prop} {A : Touch → Prop} (hA : A .none) (w : World R P I W S) : Steps K B A w w.tick :=
  Steps.one hA (Micro.rnd w _)

theorem fitPreps_steps (K : Sem R P I W S V) {B : Ref → Prop} (ρ : ℕ → Rng R) (C : Data R) {A : Touch → Prop} (hA : A .none) :
    ∀ (as : List ℕ) (X : Data R) (w : World R P I W S), (∀ a ∈ as, A (.prep a)) → Steps K B A w (fitPreps K ρ C as X w).2
  | [], _, w, _ => Steps.refl w
  | a :: as, X, w, h => by
    rw [fitPreps]
    rcases hp : K.prepFit (ρ w.rnd) (w.prep a) C X with e | p
    · exact tick_steps K hA w
    · have h1 : Steps K B A w (w.tick.setPrep a p) :=
        (tick_steps K hA w).tail (h a (List.mem_cons_self ..)) (Micro.prepFit w.tick a p _ C X hp)
      simp only
      rcases K.prepTransform p C X with e | Y
      · exact h1
      · exact h1.trans (fitPreps_steps K ρ C hA as Y _ fun b hb => h b (List.mem_cons_of_mem _ hb))

theorem fitIss_steps (K : Sem R P I W S V) {B : Ref → Prop} (ρ : ℕ → Rng R) (C X : Data R) {A : Touch → Prop} (hA : A .none) :
    ∀ (as : List ℕ) (w : World R P I W S), (∀ a ∈ as, A (.iss a)) → Steps K B A w (fitIss K ρ C X as w).2
  | [], w, _ => Steps.refl w
  | a :: as, w, h => by
    rw [fitIss]
    by_cases hr : K.issRequires (w.issAt a).1 = true
    · rw [if_pos hr]
      rcases hp : K.issFit (ρ w.rnd) (w.issAt a).1 (w.issAt a).2 C X with e | i
      · exact tick_steps K hA w
      · exact ((tick_steps K hA w).tail (h a (List.mem_cons_self ..)) (Micro.issFit w.tick a i _ C X hp)).trans
          (fitIss_steps K ρ C X hA as _ fun b hb => h b (List.mem_cons_of_mem _ hb))
    · rw [if_neg hr]
      exact fitIss_steps K ρ C X hA as w fun b hb => h b (List.mem_cons_of_mem _ hb)

theorem fitSieves_forall (K : Sem R P I W S V) (ρ : ℕ → Rng R) (C : Data R) (it : List (List R)) :
    ∀ (ss : List S) (r : ℕ) {row : List S} {r' : ℕ}, fitSieves K ρ C it ss r = (.ok row, r') →
      List.Forall₂ (fun c v => ∃ g, K.sieveFit g c C it = .ok v) ss row
  | [], r, row, r', h => by
    simp only [fitSieves, Prod.mk.injEq, Except.ok.injEq] at h
    rw [← h.1]; exact List.Forall₂.nil
  | s :: ss, r, row, r', h => by
    rw [fitSieves] at h
    rcases hp : K.sieveFit (ρ r) s C it with e | v
    · rw [hp] at h; simp at h
    · rw [hp] at h
      rcases hq : fitSieves K ρ C it ss (r + 1) with ⟨e | row', r''⟩
      · simp only [hq] at h; simp at h
      · simp only [hq, Prod.mk.injEq, Except.ok.injEq] at h
        rw [← h.1]
        exact List.Forall₂.cons ⟨_, hp⟩ (fitSieves_forall K ρ C it ss (r + 1) hq)

theorem fitItems_rows (K : Sem R P I W S V) (ρ : ℕ → Rng R) (C : Data R) (sieves : List S) :
    ∀ (its : List (List (List R))) (e : Option Err) (r : ℕ), ∀ row ∈ (fitItems K ρ C sieves its e r).1.1,
      ∃ cs, sieves.mapM K.sieveCopy = .ok cs ∧ List.Forall₂ (fun c v => ∃ g C X, K.sieveFit g c C X = .ok v) cs row
  | [], e, r => by intro row h; simp [fitItems] at h
  | it :: its, e, r => by
    intro row h
    rw [fitItems] at h
    rcases hc : sieves.mapM K.sieveCopy with e' | cs
    · rw [hc] at h; simp at h
    · rw [hc] at h
      rcases hf : fitSieves K ρ C it cs r with ⟨e' | row', r'⟩
      · simp [hf] at h
      · simp only [hf] at h
        rcases List.mem_cons.1 h with h | h
        · subst h
          exact ⟨cs, rfl, (fitSieves_forall K ρ C it cs r hf).imp fun _ _ ⟨g, hg⟩ => ⟨g, C, it, hg⟩⟩
        · obtain ⟨cs', h1, h2⟩ := fitItems_rows K ρ C sieves its e r' row h
          rw [hc] at h1; cases h1
          exact ⟨cs, rfl, h2⟩

theorem fitPreps_slice (K : Sem R P I W S V) (ρ : ℕ → Rng R) (C : Data R) : ∀ (as : List ℕ) (X : Data R) (w : World R P I W S),
    (fitPreps K ρ C as X w).2.slice = w.slice
  | [], _, _ => rfl
  | a :: as, X, w => by
    rw [fitPreps]
    rcases K.prepFit (ρ w.rnd) (w.prep a) C X with e | p
    · rfl
    · rcases h : K.prepTransform p C X with e | Y
      · simp only [h]; rfl
      · simp only [h]; exact fitPreps_slice K ρ C as Y _

theorem fitIss_slice (K : Sem R P I W S V) (ρ : ℕ → Rng R) (C X : Data R) : ∀ (as : List ℕ) (w : World R P I W S),
    (fitIss K ρ C X as w).2.slice = w.slice
  | [], _ => rfl
  | a :: as, w => by
    rw [fitIss]
    by_cases hr : K.issRequires (w.issAt a).1 = true
    · rw [if_pos hr]
      rcases K.issFit (ρ w.rnd) (w.issAt a).1 (w.issAt a).2 C X with e | i
      · rfl
      · exact fitIss_slice K ρ C X as _
    · rw [if_neg hr]; exact fitIss_slice K ρ C X as w

theorem fitFinish_steps (K : Sem R P I W S V) {B : Ref → Prop} (ρ : ℕ → Rng R) (s : ℕ) (C X : Data R) (w : World R P I W S) {A : Touch → Prop}
    (hA : A .none) (hs : A (.fit s)) (hne : (w.slice s).iss ≠ []) : Steps K B A w (fitFinish K ρ s C X w).2 := by
  rw [fitFinish]
  by_cases hr : anyRequires K w s = true
  · rw [if_pos hr]
    have hrows := fitItems_rows K ρ C ((w.slice s).sieves.map w.sieve) (iterateIss K C ((w.slice s).iss.map w.issAt) X).1
        (iterateIss K C ((w.slice s).iss.map w.issAt) X).2 w.rnd
    rcases hm : fitItems K ρ C ((w.slice s).sieves.map w.sieve) (iterateIss K C ((w.slice s).iss.map w.issAt) X).1
        (iterateIss K C ((w.slice s).iss.map w.issAt) X).2 w.rnd with ⟨⟨rows, _ | e⟩, r⟩
    · rw [hm] at hrows
      exact (Steps.one hs (Micro.fitExt w s rows true hr (Or.inl rfl) hrows hne)).tail hA (Micro.rnd _ r)
    · rw [hm] at hrows
      exact (Steps.one hs (Micro.fitExt w s rows _ hr (Or.inr rfl) hrows hne)).tail hA (Micro.rnd _ r)
  · rw [if_neg hr]
    exact Steps.one hs (Micro.fitDone w s (by simpa using hr) hne)

theorem sliceFit_steps (K : Sem R P I W S V) {B : Ref → Prop} (ρ : ℕ → Rng R) (s : ℕ) (C X : Data R) (w : World R P I W S) :
    Steps K B (FitTouch w s) w (sliceFit K ρ s C X w).2 := by
  rw [sliceFit]
  by_cases h1 : (w.slice s).iss = []
  · rw [if_pos h1]; exact Steps.refl w
  rw [if_neg h1]
  by_cases h2 : (w.slice s).sieves = []
  · rw [if_pos h2]; exact Steps.refl w
  rw [if_neg h2]
  have hA : FitTouch w s .none := trivial
  rcases selectSample (ρ w.rnd) (w.slice s).sample X with e | D
  · exact tick_steps K hA w
  have hp := fitPreps_steps K (B := B) ρ C hA (w.slice s).preps D w.tick (fun a ha => ha)
  rcases hm : fitPreps K ρ C (w.slice s).preps D w.tick with ⟨e | Y, w1⟩
  · rw [hm] at hp; simp only [hm]; exact (tick_steps K hA w).trans hp
  · rw [hm] at hp; simp only [hm]
    have hi := fitIss_steps K (B := B) ρ C Y hA (w.slice s).iss w1 (fun a ha => ha)
    rcases hm2 : fitIss K ρ C Y (w.slice s).iss w1 with ⟨e | u, w2⟩
    · rw [hm2] at hi; exact ((tick_steps K hA w).trans hp).trans hi
    · rw [hm2] at hi
      exact (((tick_steps K hA w).trans hp).trans hi).trans (fitFinish_steps K ρ s C Y w2 hA rfl (by
        have e1 := fitPreps_slice K ρ C (w.slice s).preps D w.tick
        have e2 := fitIss_slice K ρ C Y (w.slice s).iss w1
        rw [hm] at e1
        rw [hm2] at e2
        simp only at e1 e2
        rw [e2, e1]
        exact h1))

/-- The configuration of a slice. -/
def SliceObj.SameConf (o o' : SliceObj R S) : Prop :=
  o'.preps = o.preps ∧ o'.iss = o.iss ∧ o'.sieves = o.sieves ∧ o'.sample = o.sample

theorem SliceObj.SameConf.refl (o : SliceObj R S) : o.SameConf o := ⟨rfl, rfl, rfl, rfl⟩

theorem SliceObj.SameConf.trans {o o' o'' : SliceObj R S} (h : o.SameConf o') (h' : o'.SameConf o'') : o.SameConf o'' :=
  ⟨h'.1.trans h.1, h'.2.1.trans h.2.1, h'.2.2.1.trans h.2.2.1, h'.2.2.2.trans h.2.2.2⟩

/-- Only writing a slice changes its configuration. -/
theorem Micro.conf {K : Sem R P I W S V} {B : Ref → Prop} {l : Touch} {w w' : World R P I W S} (h : Micro K B l w w') {s : ℕ} (hs : s < w.nSlice)
    (hl : l ≠ .slice s) : (w.slice s).SameConf (w'.slice s) := by
  have upd : ∀ (t : ℕ) (o : SliceObj R S), (t = s → (w.slice s).SameConf o) →
      (w.slice s).SameConf (Function.update w.slice t o s) := by
    intro t o ho
    by_cases hts : s = t
    · subst hts; simpa using ho rfl
    · rw [Function.update_of_ne hts]; exact .refl _
  cases h with
  | newSlice => exact upd _ _ fun h => absurd h (by omega)
  | addPrep _ t a => exact upd _ _ fun h => absurd (by rw [h]) hl
  | addIss _ t a => exact upd _ _ fun h => absurd (by rw [h]) hl
  | addSieve _ t a => exact upd _ _ fun h => absurd (by rw [h]) hl
  | clearPreps _ t => exact upd _ _ fun h => absurd (by rw [h]) hl
  | clearIss _ t => exact upd _ _ fun h => absurd (by rw [h]) hl
  | clearSieves _ t => exact upd _ _ fun h => absurd (by rw [h]) hl
  | setSample _ t k => exact upd _ _ fun h => absurd (by rw [h]) hl
  | fitDone _ t => exact upd _ _ fun h => by subst h; exact ⟨rfl, rfl, rfl, rfl⟩
  | fitExt _ t => exact upd _ _ fun h => by subst h; exact ⟨rfl, rfl, rfl, rfl⟩
  | _ => exact .refl _

theorem Steps.conf {K : Sem R P I W S V} {B : Ref → Prop} {A : Touch → Prop} {w w' : World R P I W S} (h : Steps K B A w w') {s : ℕ}
    (hs : s < w.nSlice) (hA : ¬ A (.slice s)) : (w.slice s).SameConf (w'.slice s) := by
  induction h with
  | refl => exact .refl _
  | tail h1 hl hm ih => exact ih.trans (hm.conf (hs.trans_le h1.grows.slice) fun hc => hA (hc ▸ hl))

theorem fitSlices_steps (K : Sem R P I W S V) {B : Ref → Prop} (ρ : ℕ → Rng R) (C X : Data R) : ∀ (ss : List ℕ) (w : World R P I W S),
    (∀ s ∈ ss, s < w.nSlice) →
    Steps K B (fun l => l = .none ∨ ∃ s ∈ ss, FitTouch w s l) w (fitSlices K ρ C X ss w).2
  | [], w, _ => Steps.refl w
  | s :: ss, w, h => by
    have h1 := sliceFit_steps K (B := B) ρ s C X w
    have h1' : Steps K B (fun l => l = .none ∨ ∃ s' ∈ s :: ss, FitTouch w s' l) w (sliceFit K ρ s C X w).2 :=
      h1.mono fun l hl => Or.inr ⟨s, List.mem_cons_self .., hl⟩
    have hlt : ∀ s' ∈ ss, s' < (sliceFit K ρ s C X w).2.nSlice := fun s' hs' =>
      (h s' (List.mem_cons_of_mem _ hs')).trans_le h1.grows.slice
    have h2 := fitSlices_steps K (B := B) ρ C X ss (sliceFit K ρ s C X w).2 hlt
    have h2' : Steps K B (fun l => l = .none ∨ ∃ s' ∈ s :: ss, FitTouch w s' l) (sliceFit K ρ s C X w).2
        (fitSlices K ρ C X ss (sliceFit K ρ s C X w).2).2 := by
      refine h2.mono fun l hl => ?_
      rcases hl with hl | ⟨s', hs', hl⟩
      · exact Or.inl hl
      · refine Or.inr ⟨s', List.mem_cons_of_mem _ hs', ?_⟩
        have hc := h1.conf (h s' (List.mem_cons_of_mem _ hs')) (fun hf => hf)
        cases l <;> simp only [FitTouch] at hl ⊢
        · rw [hc.1] at hl; exact hl
        · rw [hc.2.1] at hl; exact hl
        · exact hl
    rw [fitSlices]
    rcases hm : sliceFit K ρ s C X w with ⟨e | u, w'⟩
    · rw [hm] at h1'; exact h1'
    · rw [hm] at h1' h2'
      exact h1'.trans h2'

theorem deepPreps_steps (K : Sem R P I W S V) {B : Ref → Prop} (d : ℕ) {A : Touch → Prop} (hA : A .none) (hd : A (.slice d)) :
    ∀ (as : List ℕ) (w : World R P I W S), (∀ r : Ref, r.Fresh w → B r) → Steps K B A w (deepPreps K d as w)
  | [], w, _ => Steps.refl w
  | a :: as, w, hB => by
    have h1 : Steps K B A w _ := (Steps.one hA (Micro.newPrep w (K.prepCopy (w.prep a)))).tail hd
      (Micro.addPrep _ d w.nPrep (Nat.lt_succ_self _) (hB (.prep w.nPrep) (le_refl _)))
    exact h1.trans (deepPreps_steps K d hA hd as _ fun r hr => hB r (hr.mono h1.grows))

theorem deepIss_steps (K : Sem R P I W S V) {B : Ref → Prop} (d : ℕ) {A : Touch → Prop} (hA : A .none) (hd : A (.slice d)) :
    ∀ (as : List ℕ) (w : World R P I W S), (∀ a ∈ as, a < w.nIss) → w.WF → (∀ r : Ref, r.Fresh w → B r) →
      Steps K B A w (deepIss K d as w).2
  | [], w, _, _, _ => Steps.refl w
  | a :: as, w, h, hw, hB => by
    rw [deepIss]
    rcases K.issCopy (w.issAt a).1 (w.issAt a).2 with e | i
    · exact Steps.refl w
    · have h1 : Steps K B A w _ := ((Steps.one hA (Micro.newIss w i (w.iss a).2 (hw.words a (h a (List.mem_cons_self ..))))).tail hd
        (Micro.addIss _ d w.nIss (Nat.lt_succ_self _) (hB (.iss w.nIss) (le_refl _))))
      exact h1.trans (deepIss_steps K d hA hd as _ (fun b hb => (h b (List.mem_cons_of_mem _ hb)).trans_le h1.grows.iss)
        (h1.wf hw) fun r hr => hB r (hr.mono h1.grows))

theorem deepSieves_steps (K : Sem R P I W S V) {B : Ref → Prop} (d : ℕ) {A : Touch → Prop} (hA : A .none) (hd : A (.slice d)) :
    ∀ (as : List ℕ) (w : World R P I W S), (∀ r : Ref, r.Fresh w → B r) → Steps K B A w (deepSieves K d as w).2
  | [], w, _ => Steps.refl w
  | a :: as, w, hB => by
    rw [deepSieves]
    rcases K.sieveCopy (w.sieve a) with e | v
    · exact Steps.refl w
    · have h1 : Steps K B A w _ := (Steps.one hA (Micro.newSieve w v)).tail hd
        (Micro.addSieve _ d w.nSieve (Nat.lt_succ_self _) (hB (.sieve w.nSieve) (le_refl _)))
      exact h1.trans (deepSieves_steps K d hA hd as _ fun r hr => hB r (hr.mono h1.grows))

theorem sliceDeepcopy_steps (K : Sem R P I W S V) {B : Ref → Prop} (s : ℕ) (w : World R P I W S) (hs : s < w.nSlice) (hw : w.WF) {A : Touch → Prop}
    (hA : A .none) (hd : A (.slice w.nSlice)) (hB : ∀ r : Ref, r.Fresh w → B r) : Steps K B A w (sliceDeepcopy K s w).2 := by
  have h0 : Steps K B A w w.newSlice := Steps.one hA (Micro.newSlice w)
  have h1 := h0.trans (deepPreps_steps K w.nSlice hA hd (w.slice s).preps w.newSlice fun r hr => hB r (hr.mono h0.grows))
  have h2 := h1.trans (deepIss_steps K w.nSlice hA hd (w.slice s).iss _
    (fun a ha => (hw.iss s hs a ha).trans_le h1.grows.iss) (h1.wf hw) fun r hr => hB r (hr.mono h1.grows))
  rw [sliceDeepcopy]
  rcases hm : deepIss K w.nSlice (w.slice s).iss (deepPreps K w.nSlice (w.slice s).preps w.newSlice) with ⟨e | u, w1⟩
  · rw [hm] at h2; exact h2
  · rw [hm] at h2
    have h3 := h2.trans (deepSieves_steps K w.nSlice hA hd (w.slice s).sieves w1 fun r hr => hB r (hr.mono h2.grows))
    simp only
    rcases hm2 : deepSieves K w.nSlice (w.slice s).sieves w1 with ⟨e | u, w2⟩
    · rw [hm2] at h3; exact h3
    · rw [hm2] at h3; exact h3.tail hd (Micro.setSample w2 w.nSlice _)

theorem sliceDeepcopy_ok {K : Sem R P I W S V} {s : ℕ} {w w' : World R P I W S} {d : ℕ} (h : sliceDeepcopy K s w = (.ok d, w')) :
    d = w.nSlice := by
  rw [sliceDeepcopy] at h
  rcases hm : deepIss K w.nSlice (w.slice s).iss (deepPreps K w.nSlice (w.slice s).preps w.newSlice) with ⟨e | u, w1⟩
  · rw [hm] at h; simp at h
  · rw [hm] at h
    simp only at h
    rcases hm2 : deepSieves K w.nSlice (w.slice s).sieves w1 with ⟨e | u, w2⟩
    · rw [hm2] at h; simp at h
    · rw [hm2] at h; simp only [Prod.mk.injEq, Except.ok.injEq] at h; exact h.1.symm

theorem sliceAdd_live (s : ℕ) : ∀ (args : List (Arg P S)) (w : World R P I W S), (∀ x ∈ args, ∀ e, x ≠ .bad e) →
    (sliceAdd s args w).1 = .ok ()
  | [], _, _ => rfl
  | .prep a :: as, w, h => sliceAdd_live s as _ fun x hx => h x (List.mem_cons_of_mem _ hx)
  | .iss a :: as, w, h => sliceAdd_live s as _ fun x hx => h x (List.mem_cons_of_mem _ hx)
  | .sieve a :: as, w, h => sliceAdd_live s as _ fun x hx => h x (List.mem_cons_of_mem _ hx)
  | .prepClass a :: as, w, h => sliceAdd_live s as _ fun x hx => h x (List.mem_cons_of_mem _ hx)
  | .sieveClass a :: as, w, h => sliceAdd_live s as _ fun x hx => h x (List.mem_cons_of_mem _ hx)
  | .bad e :: _, _, h => absurd rfl (h (.bad e) (List.mem_cons_self ..) e)

/-- The seeds of a slice, as arguments of `add`. -/
def seedArgs (w : World R P I W S) (s : ℕ) : List (Arg P S) :=
  (w.slice s).preps.map Arg.prep ++ (w.slice s).iss.map Arg.iss ++ (w.slice s).sieves.map Arg.sieve

theorem seedArgs_live {w : World R P I W S} (hw : w.WF) {s : ℕ} (hs : s < w.nSlice) : ∀ x ∈ seedArgs w s, x.Live w := by
  intro x hx
  simp only [seedArgs, List.mem_append, List.mem_map] at hx
  rcases hx with (⟨a, ha, rfl⟩ | ⟨a, ha, rfl⟩) | ⟨a, ha, rfl⟩
  · exact hw.preps s hs a ha
  · exact hw.iss s hs a ha
  · exact hw.sieves s hs a ha

theorem seedArgs_good (w : World R P I W S) (s : ℕ) : ∀ x ∈ seedArgs w s, ∀ e, x ≠ Arg.bad e := by
  intro x hx e
  simp only [seedArgs, List.mem_append, List.mem_map] at hx
  rcases hx with (⟨a, ha, rfl⟩ | ⟨a, ha, rfl⟩) | ⟨a, ha, rfl⟩ <;> simp

theorem sliceCopy_eq (s : ℕ) (w : World R P I W S) :
    sliceCopy s w = (.ok w.nSlice, (sliceAdd w.nSlice (seedArgs w s) w.newSlice).2) := by
  have h := sliceAdd_live w.nSlice (seedArgs w s) w.newSlice (seedArgs_good w s)
  rw [sliceCopy]
  show (match sliceAdd w.nSlice (seedArgs w s) w.newSlice with
    | (.error e, w') => (.error e, w') | (.ok (), w') => (.ok w.nSlice, w') : Res R P I W S ℕ) = _
  rcases hm : sliceAdd w.nSlice (seedArgs w s) w.newSlice with ⟨e | u, w1⟩
  · rw [hm] at h; simp at h
  · rfl

theorem sliceCopy_steps (K : Sem R P I W S V) {B : Ref → Prop} (s : ℕ) (w : World R P I W S) (hs : s < w.nSlice) (hw : w.WF) {A : Touch → Prop}
    (hA : A .none) (hd : A (.slice w.nSlice)) (hB : ∀ r : Ref, r.Fresh w → B r) (hr : ∀ x ∈ seedArgs w s, x.In B) :
    Steps K B A w (sliceCopy s w).2 := by
  rw [sliceCopy_eq]
  have h0 : Steps K B A w w.newSlice := Steps.one hA (Micro.newSlice w)
  refine h0.trans ((sliceAdd_steps K w.nSlice (seedArgs w s) w.newSlice ?_ hr fun r hr => hB r (hr.mono h0.grows)).mono ?_)
  · intro x hx
    have := seedArgs_live hw hs x hx
    cases x <;> exact this
  · rintro l (rfl | rfl)
    · exact hA
    · exact hd

theorem copySlices_steps (K : Sem R P I W S V) {B : Ref → Prop} (f : ℕ) (n : ℕ) {A : Touch → Prop} (hA : A .none) (hd : ∀ s, n ≤ s → A (.slice s))
    (hf : A (.fruit f)) : ∀ (ss : List ℕ) (w : World R P I W S), (∀ s ∈ ss, s < w.nSlice) → n ≤ w.nSlice → w.WF →
      (∀ r : Ref, r.Fresh w → B r) → (∀ s ∈ ss, ∀ x ∈ seedArgs w s, x.In B) → (¬ ∃ s < n, A (.slice s)) → (∀ s ∈ ss, s < n) →
      Steps K B A w (copySlices f ss w).2
  | [], w, _, _, _, _, _, _, _ => Steps.refl w
  | s :: ss, w, h, hn, hw, hB, hr, hno, hlt => by
    have h1 := sliceCopy_steps K s w (h s (List.mem_cons_self ..)) hw hA (hd _ hn) hB (hr s (List.mem_cons_self ..))
    have hlt' : w.nSlice < (sliceCopy s w).2.nSlice := by
      rw [sliceCopy_eq]
      have := (sliceAdd_steps K (B := fun _ => True) w.nSlice (seedArgs w s) w.newSlice (fun x hx => by
        have := seedArgs_live hw (h s (List.mem_cons_self ..)) x hx
        cases x <;> exact this) (fun x _ => by cases x <;> trivial) (fun _ _ => trivial)).grows.slice
      exact Nat.lt_of_succ_le this
    rw [copySlices]
    rw [sliceCopy_eq] at h1 hlt' ⊢
    have h2 := h1.tail hf (Micro.cut _ f w.nSlice hlt' (hB (.slice w.nSlice) (le_refl _)))
    refine h2.trans (copySlices_steps K f n hA hd hf ss _ (fun s' hs' => (h s' (List.mem_cons_of_mem _ hs')).trans_le h2.grows.slice)
      (hn.trans h2.grows.slice) (h2.wf hw) (fun r hr' => hB r (hr'.mono h2.grows)) (fun s' hs' x hx => ?_) hno
      fun s' hs' => hlt s' (List.mem_cons_of_mem _ hs'))
    have hc := h2.conf (h s' (List.mem_cons_of_mem _ hs')) fun hA' => hno ⟨s', hlt s' (List.mem_cons_of_mem _ hs'), hA'⟩
    rw [seedArgs, hc.1, hc.2.1, hc.2.2.1] at hx
    exact hr s' (List.mem_cons_of_mem _ hs') x hx

theorem deepcopy_slices (K : Sem R P I W S V) (s : ℕ) (w : World R P I W S) (hs : s < w.nSlice) (hw : w.WF) :
    w.nSlice < (sliceDeepcopy K s w).2.nSlice := by
  have h0 : Steps K (fun _ => True) (fun _ => True) w w.newSlice := Steps.one trivial (Micro.newSlice w)
  have h1 := (deepPreps_steps K (B := fun _ => True) w.nSlice (A := fun _ => True) trivial trivial (w.slice s).preps w.newSlice fun _ _ => trivial)
  have h2 := h1.trans (deepIss_steps K w.nSlice (A := fun _ => True) trivial trivial (w.slice s).iss _
    (fun a ha => (hw.iss s hs a ha).trans_le (h0.trans h1).grows.iss) ((h0.trans h1).wf hw) fun _ _ => trivial)
  rw [sliceDeepcopy]
  rcases hm : deepIss K w.nSlice (w.slice s).iss (deepPreps K w.nSlice (w.slice s).preps w.newSlice) with ⟨e | u, w1⟩
  · rw [hm] at h2; exact Nat.lt_of_succ_le h2.grows.slice
  · rw [hm] at h2
    have h3 := h2.trans (deepSieves_steps K w.nSlice (A := fun _ => True) trivial trivial (w.slice s).sieves w1 fun _ _ => trivial)
    simp only
    rcases hm2 : deepSieves K w.nSlice (w.slice s).sieves w1 with ⟨e | u, w2⟩
    · rw [hm2] at h3; exact Nat.lt_of_succ_le h3.grows.slice
    · rw [hm2] at h3; exact Nat.lt_of_succ_le h3.grows.slice

theorem deepSlices_steps (K : Sem R P I W S V) {B : Ref → Prop} (f : ℕ) (n : ℕ) {A : Touch → Prop} (hA : A .none) (hd : ∀ s, n ≤ s → A (.slice s))
    (hf : A (.fruit f)) : ∀ (ss : List ℕ) (w : World R P I W S), (∀ s ∈ ss, s < w.nSlice) → n ≤ w.nSlice → w.WF →
      (∀ r : Ref, r.Fresh w → B r) → Steps K B A w (deepSlices K f ss w).2
  | [], w, _, _, _, _ => Steps.refl w
  | s :: ss, w, h, hn, hw, hB => by
    have h1 := sliceDeepcopy_steps K s w (h s (List.mem_cons_self ..)) hw hA (hd _ hn) hB
    have hlt := deepcopy_slices K s w (h s (List.mem_cons_self ..)) hw
    rw [deepSlices]
    rcases hm : sliceDeepcopy K s w with ⟨e | d, w'⟩
    · rw [hm] at h1; exact h1
    · rw [hm] at h1 hlt
      have hdd := sliceDeepcopy_ok hm
      subst hdd
      have h2 := h1.tail hf (Micro.cut _ f w.nSlice hlt (hB (.slice w.nSlice) (le_refl _)))
      exact h2.trans (deepSlices_steps K f n hA hd hf ss _
        (fun s' hs' => (h s' (List.mem_cons_of_mem _ hs')).trans_le h2.grows.slice) (hn.trans h2.grows.slice) (h2.wf hw)
        fun r hr => hB r (hr.mono h2.grows))

theorem args_in {w : World R P I W S} {B : Ref → Prop} {args : List (Arg P S)} (_ : ∀ r : Ref, r.Fresh w → B r)
    (h : ∀ r : Ref, ((∃ a, r = .prep a ∧ Arg.prep a ∈ args) ∨ (∃ a, r = .iss a ∧ Arg.iss a ∈ args) ∨
      ∃ a, r = .sieve a ∧ Arg.sieve a ∈ args) → B r) : ∀ x ∈ args, x.In B := by
  intro x hx
  cases x with
  | prep a => exact h _ (Or.inl ⟨a, rfl, hx⟩)
  | iss a => exact h _ (Or.inr (Or.inl ⟨a, rfl, hx⟩))
  | sieve a => exact h _ (Or.inr (Or.inr ⟨a, rfl, hx⟩))
  | _ => trivial

theorem seedArgs_in {w : World R P I W S} {s : ℕ} {B : Ref → Prop}
    (h : ∀ r : Ref, ((∃ a, r = .prep a ∧ a ∈ (w.slice s).preps) ∨ (∃ a, r = .iss a ∧ a ∈ (w.slice s).iss) ∨
      ∃ a, r = .sieve a ∧ a ∈ (w.slice s).sieves) → B r) : ∀ x ∈ seedArgs w s, x.In B := by
  intro x hx
  simp only [seedArgs, List.mem_append, List.mem_map] at hx
  rcases hx with (⟨a, ha, rfl⟩ | ⟨a, ha, rfl⟩) | ⟨a, ha, rfl⟩
  · exact h _ (Or.inl ⟨a, rfl, ha⟩)
  · exact h _ (Or.inr (Or.inl ⟨a, rfl, ha⟩))
  · exact h _ (Or.inr (Or.inr ⟨a, rfl, ha⟩))

/-- Every call is a sequence of small changes that write nothing but what `Op.Touches` says and put nothing into lists but what
`Op.Refs` says. -/
theorem step_steps (K : Sem R P I W S V) (ρ : ℕ → Rng R) (o : Op R P I W S) (w : World R P I W S) (hl : o.Live w) (hw : w.WF) :
    Steps K (o.Refs w) (o.Touches w) w (step K ρ o w).2 := by
  have hnone : o.Touches w .none := Or.inl trivial
  have hfresh : ∀ r : Ref, r.Fresh w → o.Refs w r := fun r hr => Or.inl hr
  have hone : ∀ {w' : World R P I W S}, Micro K (o.Refs w) .none w w' → Steps K (o.Refs w) (o.Touches w) w w' := fun h => Steps.one hnone h
  cases o with
  | newPrep p => exact hone (.newPrep w p)
  | newWords ws => exact hone (.newWords w ws)
  | newIss i ws => exact hone (.newIss w i ws hl)
  | newSieve v => exact hone (.newSieve w v)
  | newSlice => exact hone (.newSlice w)
  | newFruit name => exact hone (.newFruit w name)
  | prepFit a C X =>
    simp only [step, Except.write]
    rcases hp : K.prepFit (ρ w.rnd) (w.prep a) C X with e | p
    · exact tick_steps K hnone w
    · exact (tick_steps K hnone w).tail (Or.inr rfl) (.prepFit w.tick a p _ C X hp)
  | issFit a C X =>
    simp only [step, Except.write]
    rcases hp : K.issFit (ρ w.rnd) (w.issAt a).1 (w.issAt a).2 C X with e | p
    · exact tick_steps K hnone w
    · exact (tick_steps K hnone w).tail (Or.inr rfl) (.issFit w.tick a p _ C X hp)
  | sieveFit a C X =>
    simp only [step, Except.write]
    rcases hp : K.sieveFit (ρ w.rnd) (w.sieve a) C X with e | p
    · exact tick_steps K hnone w
    · exact (tick_steps K hnone w).tail (Or.inr rfl) (.sieveFit w.tick a p _ C X hp)
  | editIss a i => exact Steps.one (Or.inr rfl) (.editIss w a i)
  | editWords a ws => exact Steps.one (Or.inr rfl) (.editWords w a ws)
  | add s args =>
    refine (sliceAdd_steps K s args w hl.2 (args_in hfresh (by rintro r hr; exact Or.inr hr)) hfresh).mono ?_
    rintro l (rfl | rfl)
    · exact hnone
    · exact Or.inr rfl
  | clearPreps s => exact Steps.one (Or.inr rfl) (.clearPreps w s)
  | clearIss s => exact Steps.one (Or.inr rfl) (.clearIss w s)
  | clearSieves s => exact Steps.one (Or.inr rfl) (.clearSieves w s)
  | clear s =>
    exact (((Steps.one (A := Op.Touches w (.clear s)) (Or.inr rfl) (.clearPreps w s)).tail (Or.inr rfl) (.clearIss _ s)).tail
      (Or.inr rfl) (.clearSieves _ s)).tail (Or.inr rfl) (.setSample _ s _)
  | setSample s k => exact Steps.one (Or.inr rfl) (.setSample w s k)
  | fit s C X => exact (sliceFit_steps K ρ s _ X w).mono fun l h => Or.inr h
  | transform s C X => exact Steps.refl w
  | copy s => exact sliceCopy_steps K s w hl hw hnone (Or.inl (le_refl w.nSlice)) hfresh (seedArgs_in fun r hr => Or.inr hr)
  | deepcopy s => exact sliceDeepcopy_steps K s w hl hw hnone (Or.inl (le_refl w.nSlice)) hfresh
  | cut f s =>
    cases s with
    | none =>
      exact (Steps.one (A := Op.Touches w (.cut f none)) hnone (.newSlice w)).tail (Or.inr rfl)
        (.cut _ f w.nSlice (Nat.lt_succ_self _) (hfresh (.slice w.nSlice) (le_refl _)))
    | some s => exact Steps.one (A := Op.Touches w (.cut f (some s))) (Or.inr rfl) (.cut w f s (hl.2 s rfl) (Or.inr ⟨s, rfl, rfl⟩))
  | copycut f =>
    simp only [step, fruitCopycut]
    rcases hc : currentSlice w f with e | s
    · exact Steps.refl w
    · have hs : s < w.nSlice := by
        rw [currentSlice] at hc
        rcases hg : (w.fruit f).slices[(w.fruit f).cur]? with _ | t
        · rw [hg] at hc; simp at hc
        · rw [hg] at hc; cases hc; exact hw.slices f hl s (List.mem_of_getElem? hg)
      have h1 := sliceDeepcopy_steps K s w hs hw hnone (Or.inl (le_refl w.nSlice)) hfresh
      have hlt := deepcopy_slices K s w hs hw
      simp only
      rcases hm : sliceDeepcopy K s w with ⟨e | d, w'⟩
      · rw [hm] at h1; exact h1
      · rw [hm] at h1 hlt
        have hdd := sliceDeepcopy_ok hm
        subst hdd
        exact h1.tail (Or.inr rfl) (.cut _ f w.nSlice hlt (hfresh (.slice w.nSlice) (le_refl _)))
  | switch f i =>
    simp only [step, fruitSwitch]
    by_cases hi : 0 ≤ i ∧ i < ((w.fruit f).slices.length : ℤ)
    · rw [if_pos hi]
      exact Steps.one (Or.inr rfl) (.switch w f i.toNat (by omega))
    · rw [if_neg hi]; exact Steps.refl w
  | fruitAdd f args =>
    have h0 : Steps K (Op.Refs w (.fruitAdd f args)) (Op.Touches w (.fruitAdd f args)) w (ensureSlice f w) := by
      rw [ensureSlice]
      by_cases he : (w.fruit f).slices = []
      · rw [if_pos he]
        exact (Steps.one (A := Op.Touches w (.fruitAdd f args)) hnone (.newSlice w)).tail (Or.inr (Or.inl rfl))
          (.cut _ f w.nSlice (Nat.lt_succ_self _) (hfresh (.slice w.nSlice) (le_refl _)))
      · rw [if_neg he]; exact Steps.refl w
    simp only [step, fruitAdd]
    rcases hc : currentSlice (ensureSlice f w) f with e | s
    · exact h0
    · have hs : Op.Touches w (.fruitAdd f args) (.slice s) := by
        rw [ensureSlice] at hc
        by_cases he : (w.fruit f).slices = []
        · rw [if_pos he] at hc
          have : s = w.nSlice := by
            simp only [currentSlice, fruitCutNew, fruitCut, World.newSlice, World.setSlice, World.setFruit,
              Function.update_self, he] at hc
            simp at hc; exact hc.symm
          subst this
          exact Or.inl (le_refl w.nSlice)
        · rw [if_neg he] at hc
          exact Or.inr (Or.inr ⟨s, hc, rfl⟩)
      have hlive : ∀ x ∈ args, x.Live (ensureSlice f w) := by
        intro x hx
        have := hl.2 x hx
        have g := h0.grows
        cases x <;> simp only [Arg.Live] at this ⊢
        · exact this.trans_le g.prep
        · exact this.trans_le g.iss
        · exact this.trans_le g.sieve
      have h1 := h0.trans ((sliceAdd_steps K s args (ensureSlice f w) hlive (args_in hfresh (by rintro r hr; exact Or.inr hr))
        fun r hr => hfresh r (hr.mono h0.grows)).mono (by
        rintro l (rfl | rfl)
        · exact hnone
        · exact hs))
      simp only
      rcases hm : sliceAdd s args (ensureSlice f w) with ⟨e | u, w'⟩
      · rw [hm] at h1; exact h1
      · rw [hm] at h1; exact h1.tail (Or.inr (Or.inl rfl)) (.setFitted w' f false)
  | fruitFit f C X =>
    have h1 := (fitSlices_steps K (B := Op.Refs w (.fruitFit f C X)) ρ (cacheInput C X) X (w.fruit f).slices w (hw.slices f hl)).mono
      (A' := Op.Touches w (.fruitFit f C X)) (by
        rintro l (rfl | h)
        · exact hnone
        · exact Or.inr (Or.inr h))
    simp only [step, fruitFit]
    rcases hm : fitSlices K ρ (cacheInput C X) X (w.fruit f).slices w with ⟨e | u, w'⟩
    · rw [hm] at h1; exact h1
    · rw [hm] at h1; exact h1.tail (Or.inr (Or.inl rfl)) (.setFitted w' f true)
  | fruitTransform f C X => exact Steps.refl w
  | fruitCopy f =>
    have h0 : Steps K (Op.Refs w (.fruitCopy f)) (Op.Touches w (.fruitCopy f)) w (w.newFruit ((w.fruit f).name ++ " (Copy)".toList)) :=
      hone (.newFruit w _)
    have h1 := h0.trans (copySlices_steps K w.nFruit w.nSlice hnone (fun s hs => Or.inl hs) (Or.inl (le_refl w.nFruit))
      (w.fruit f).slices _ (hw.slices f hl) le_rfl (h0.wf hw) (fun r hr => hfresh r (hr.mono h0.grows))
      (fun s hs => seedArgs_in fun r hr => Or.inr ⟨s, hs, hr⟩) (by
        rintro ⟨s, hs, h | h⟩
        · have h : w.nSlice ≤ s := h
          have hs : s < w.nSlice := hs
          omega
        · exact h) (hw.slices f hl))
    simp only [step, fruitCopy]
    rcases hm : copySlices w.nFruit (w.fruit f).slices (w.newFruit ((w.fruit f).name ++ " (Copy)".toList)) with ⟨e | u, w'⟩
    · rw [hm] at h1; exact h1
    · rw [hm] at h1; exact h1
  | fruitDeepcopy f =>
    have h0 : Steps K (Op.Refs w (.fruitDeepcopy f)) (Op.Touches w (.fruitDeepcopy f)) w (w.newFruit ((w.fruit f).name ++ " (Deepcopy)".toList)) :=
      hone (.newFruit w _)
    have h1 := h0.trans (deepSlices_steps K w.nFruit w.nSlice hnone (fun s hs => Or.inl hs) (Or.inl (le_refl w.nFruit))
      (w.fruit f).slices _ (hw.slices f hl) le_rfl (h0.wf hw) fun r hr => hfresh r (hr.mono h0.grows))
    simp only [step, fruitDeepcopy]
    rcases hm : deepSlices K w.nFruit (w.fruit f).slices (w.newFruit ((w.fruit f).name ++ " (Deepcopy)".toList)) with ⟨e | u, w'⟩
    · rw [hm] at h1; exact h1
    · rw [hm] at h1; exact h1

theorem Hist.wf {K : Sem R P I W S V} {ρ : ℕ → Rng R} {w₀ w : World R P I W S} {ops : List (Op R P I W S)}
    (h : Hist K ρ w₀ ops w) (h0 : w₀.WF) : w.WF := by
  induction h with
  | nil => exact h0
  | snoc o _ hl ih => exact (step_steps K ρ o _ hl ih).wf ih

/-- Invariants of the small changes hold after every history. -/
theorem Hist.invariant {K : Sem R P I W S V} {ρ : ℕ → Rng R} {Inv : World R P I W S → Prop}
    (hm : ∀ B l w w', Micro K B l w w' → w.WF → Inv w → Inv w') {w₀ w : World R P I W S} {ops : List (Op R P I W S)}
    (h : Hist K ρ w₀ ops w) (h0 : w₀.WF) (hi : Inv w₀) : Inv w := by
  induction h with
  | nil => exact hi
  | snoc o hh hl ih =>
    have hw := hh.wf h0
    exact ((step_steps K ρ o _ hl hw).invariant (Inv := fun v => v.WF ∧ Inv v)
      (fun l v v' _ hmic hv => ⟨hmic.wf hv.1, hm _ l v v' hmic hv.1 hv.2⟩) ⟨hw, ih⟩).2

end Fruits
