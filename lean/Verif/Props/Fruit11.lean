import Verif.Props.Fruit10

/-! # Refitting forgets the past (property C77) -/

namespace Fruits
set_option linter.unusedSectionVars false

variable {R P I W S V : Type} [Field R] [LinearOrder R] [FloorRing R]

/-- Seeds can be fitted again: the result of `fit` depends on the settings of the seed, the data and the random numbers, but
not on an earlier `fit`.  What does not require fitting is not changed by it (as far as `transform` can see). -/
structure Sem.Refits (K : Sem R P I W S V) : Prop where
  prep : ∀ g p C X p', K.prepFit g p C X = .ok p' → ∀ g' C' X', K.prepFit g' p' C' X' = K.prepFit g' p C' X'
  iss : ∀ g i ws C X i', K.issFit g i ws C X = .ok i' → ∀ g' ws' C' X', K.issFit g' i' ws' C' X' = K.issFit g' i ws' C' X'
  issRequires : ∀ g i ws C X i', K.issFit g i ws C X = .ok i' → K.issRequires i' = K.issRequires i
  issSame : ∀ g i ws C X i', K.issFit g i ws C X = .ok i' → K.issRequires i = false → i' = i
  issCount : ∀ g i ws C X i', K.issFit g i ws C X = .ok i' → ∀ ws', K.issCount i' ws' = K.issCount i ws'
  sieve : ∀ g v C X v', K.sieveFit g v C X = .ok v' → K.sieveCopy v' = K.sieveCopy v
  sieveSame : ∀ g v C X v', K.sieveFit g v C X = .ok v' → K.sieveRequires v = false →
    ∀ C' X', K.sieveTransform v' C' X' = K.sieveTransform v C' X'

/-- Seeds of two worlds that only differ in what `fit` has done. -/
structure RefitSame (K : Sem R P I W S V) (ps is ss : List ℕ) (w w' : World R P I W S) : Prop where
  prep : ∀ a ∈ ps, ∀ g C X, K.prepFit g (w'.prep a) C X = K.prepFit g (w.prep a) C X
  addr : ∀ a ∈ is, (w'.iss a).2 = (w.iss a).2
  words : ∀ a ∈ is, w'.words (w.iss a).2 = w.words (w.iss a).2
  requires : ∀ a ∈ is, K.issRequires (w'.iss a).1 = K.issRequires (w.iss a).1
  iss : ∀ a ∈ is, ∀ g ws C X, K.issFit g (w'.iss a).1 ws C X = K.issFit g (w.iss a).1 ws C X
  same : ∀ a ∈ is, K.issRequires (w.iss a).1 = false → (w'.iss a).1 = (w.iss a).1
  count : ∀ a ∈ is, ∀ ws, K.issCount (w'.iss a).1 ws = K.issCount (w.iss a).1 ws
  copy : ∀ a ∈ ss, K.sieveCopy (w'.sieve a) = K.sieveCopy (w.sieve a)
  req : ∀ a ∈ ss, K.sieveRequires (w'.sieve a) = K.sieveRequires (w.sieve a)
  num : ∀ a ∈ ss, K.sieveN (w'.sieve a) = K.sieveN (w.sieve a)
  trans : ∀ a ∈ ss, K.sieveRequires (w.sieve a) = false →
    ∀ C X, K.sieveTransform (w'.sieve a) C X = K.sieveTransform (w.sieve a) C X

theorem RefitSame.refl (K : Sem R P I W S V) (ps is ss : List ℕ) (w : World R P I W S) : RefitSame K ps is ss w w :=
  ⟨fun _ _ _ _ _ => rfl, fun _ _ => rfl, fun _ _ => rfl, fun _ _ => rfl, fun _ _ _ _ _ _ => rfl, fun _ _ _ => rfl, fun _ _ _ => rfl, fun _ _ => rfl,
    fun _ _ => rfl, fun _ _ => rfl, fun _ _ _ _ _ => rfl⟩

theorem RefitSame.trans' {K : Sem R P I W S V} {ps is ss : List ℕ} {w w₁ w₂ : World R P I W S} (h : RefitSame K ps is ss w w₁)
    (h' : RefitSame K ps is ss w₁ w₂) : RefitSame K ps is ss w w₂ where
  prep := fun a ha g C X => (h'.prep a ha g C X).trans (h.prep a ha g C X)
  addr := fun a ha => (h'.addr a ha).trans (h.addr a ha)
  words := fun a ha => by 
    have e := h'.words a ha
    rw [h.addr a ha] at e
    exact e.trans (h.words a ha)
  requires := fun a ha => (h'.requires a ha).trans (h.requires a ha)
  iss := fun a ha g ws C X => (h'.iss a ha g ws C X).trans (h.iss a ha g ws C X)
  same := fun a ha hr => (h'.same a ha (by rw [h.requires a ha]; exact hr)).trans (h.same a ha hr)
  count := fun a ha ws => (h'.count a ha ws).trans (h.count a ha ws)
  copy := fun a ha => (h'.copy a ha).trans (h.copy a ha)
  req := fun a ha => (h'.req a ha).trans (h.req a ha)
  num := fun a ha => (h'.num a ha).trans (h.num a ha)
  trans := fun a ha hr C X => (h'.trans a ha (by rw [h.req a ha]; exact hr) C X).trans (h.trans a ha hr C X)

theorem RefitSame.symm' {K : Sem R P I W S V} {ps is ss : List ℕ} {w w' : World R P I W S} (h : RefitSame K ps is ss w w') :
    RefitSame K ps is ss w' w where
  prep := fun a ha g C X => (h.prep a ha g C X).symm
  addr := fun a ha => (h.addr a ha).symm
  words := fun a ha => by rw [h.addr a ha]; exact (h.words a ha).symm
  requires := fun a ha => (h.requires a ha).symm
  iss := fun a ha g ws C X => (h.iss a ha g ws C X).symm
  same := fun a ha hr => (h.same a ha (by rw [← h.requires a ha]; exact hr)).symm
  count := fun a ha ws => (h.count a ha ws).symm
  copy := fun a ha => (h.copy a ha).symm
  req := fun a ha => (h.req a ha).symm
  num := fun a ha => (h.num a ha).symm
  trans := fun a ha hr C X => (h.trans a ha (by rw [← h.req a ha]; exact hr) C X).symm

theorem RefitSame.mono {K : Sem R P I W S V} {ps is ss ps' is' ss' : List ℕ} {w w' : World R P I W S} (h : RefitSame K ps is ss w w')
    (h1 : ∀ a ∈ ps', a ∈ ps) (h2 : ∀ a ∈ is', a ∈ is) (h3 : ∀ a ∈ ss', a ∈ ss) : RefitSame K ps' is' ss' w w' where
  prep := fun a ha => h.prep a (h1 a ha)
  addr := fun a ha => h.addr a (h2 a ha)
  words := fun a ha => h.words a (h2 a ha)
  requires := fun a ha => h.requires a (h2 a ha)
  iss := fun a ha => h.iss a (h2 a ha)
  same := fun a ha => h.same a (h2 a ha)
  count := fun a ha => h.count a (h2 a ha)
  copy := fun a ha => h.copy a (h3 a ha)
  req := fun a ha => h.req a (h3 a ha)
  num := fun a ha => h.num a (h3 a ha)
  trans := fun a ha => h.trans a (h3 a ha)

theorem RefitSame.of_eq {K : Sem R P I W S V} {ps is ss : List ℕ} {w w' : World R P I W S} (hp : ∀ a ∈ ps, w'.prep a = w.prep a)
    (hi : ∀ a ∈ is, w'.iss a = w.iss a) (hw : ∀ a ∈ is, w'.words (w.iss a).2 = w.words (w.iss a).2)
    (hs : ∀ a ∈ ss, w'.sieve a = w.sieve a) : RefitSame K ps is ss w w' where
  prep := fun a ha _ _ _ => by rw [hp a ha]
  addr := fun a ha => by rw [hi a ha]
  words := hw
  requires := fun a ha => by rw [hi a ha]
  iss := fun a ha _ _ _ _ => by rw [hi a ha]
  same := fun a ha _ => by rw [hi a ha]
  count := fun a ha _ => by rw [hi a ha]
  copy := fun a ha => by rw [hs a ha]
  req := fun a ha => by rw [hs a ha]
  num := fun a ha => by rw [hs a ha]
  trans := fun a ha _ _ _ => by rw [hs a ha]

/-- A small change that is not an edit of one of the ISS objects or their words only fits seeds. -/
theorem Micro.refitSame {K : Sem R P I W S V} (hR : K.Refits) (hN : K.KeepsN) {B : Ref → Prop} {l : Touch} {w w' : World R P I W S}
    (h : Micro K B l w w') {ps is ss : List ℕ} (hps : ∀ a ∈ ps, a < w.nPrep) (his : ∀ a ∈ is, a < w.nIss)
    (hws : ∀ a ∈ is, (w.iss a).2 < w.nWords) (hss : ∀ a ∈ ss, a < w.nSieve)
    (he : ∀ a ∈ is, l ≠ .edit a ∧ l ≠ .words (w.iss a).2) : RefitSame K ps is ss w w' := by
  cases h with
  | newPrep _ p =>
    refine RefitSame.of_eq (fun a ha => ?_) (fun _ _ => rfl) (fun _ _ => rfl) (fun _ _ => rfl)
    have := hps a ha
    exact Function.update_of_ne (by omega) _ _
  | newWords _ ws =>
    refine RefitSame.of_eq (fun _ _ => rfl) (fun _ _ => rfl) (fun a ha => ?_) (fun _ _ => rfl)
    have := hws a ha
    exact Function.update_of_ne (by omega) _ _
  | newIss _ i ws =>
    refine RefitSame.of_eq (fun _ _ => rfl) (fun a ha => ?_) (fun _ _ => rfl) (fun _ _ => rfl)
    have := his a ha
    exact Function.update_of_ne (by omega) _ _
  | newSieve _ v =>
    refine RefitSame.of_eq (fun _ _ => rfl) (fun _ _ => rfl) (fun _ _ => rfl) (fun a ha => ?_)
    have := hss a ha
    exact Function.update_of_ne (by omega) _ _
  | prepFit _ b p g C X hf =>
    refine { RefitSame.refl K ps is ss w with prep := fun a ha g' C' X' => ?_ }
    show K.prepFit g' (Function.update w.prep b p a) C' X' = _
    by_cases hab : a = b
    · subst hab; rw [Function.update_self]; exact hR.prep g _ C X p hf g' C' X'
    · rw [Function.update_of_ne hab]
  | issFit _ b i g C X hf =>
    have hc : ∀ a, (w.setIss b i).iss a = if a = b then (i, (w.iss a).2) else w.iss a := by
      intro a
      by_cases hab : a = b
      · subst hab; simp [World.setIss]
      · rw [if_neg hab]; exact Function.update_of_ne hab _ _
    refine { RefitSame.refl K ps is ss w with addr := ?_, requires := ?_, iss := ?_, same := ?_, count := ?_ }
    · intro a _; exact setIss_words b i a
    · intro a _
      rw [hc]
      by_cases hab : a = b
      · subst hab; rw [if_pos rfl]; exact hR.issRequires g _ _ C X i hf
      · rw [if_neg hab]
    · intro a _ g' ws' C' X'
      rw [hc]
      by_cases hab : a = b
      · subst hab; rw [if_pos rfl]; exact hR.iss g _ _ C X i hf g' ws' C' X'
      · rw [if_neg hab]
    · intro a _ hr
      rw [hc]
      by_cases hab : a = b
      · subst hab; rw [if_pos rfl]; exact hR.issSame g _ _ C X i hf hr
      · rw [if_neg hab]
    · intro a _ ws'
      rw [hc]
      by_cases hab : a = b
      · subst hab; rw [if_pos rfl]; exact hR.issCount g _ _ C X i hf ws'
      · rw [if_neg hab]
  | sieveFit _ b v g C X hf =>
    have hc : ∀ a, (w.setSieve b v).sieve a = if a = b then v else w.sieve a := by
      intro a; simp [World.setSieve, Function.update_apply]
    refine { RefitSame.refl K ps is ss w with copy := ?_, req := ?_, num := ?_, trans := ?_ }
    · intro a _
      rw [hc]
      by_cases hab : a = b
      · subst hab; rw [if_pos rfl]; exact hR.sieve g _ C X v hf
      · rw [if_neg hab]
    · intro a _
      rw [hc]
      by_cases hab : a = b
      · subst hab; rw [if_pos rfl]; exact hN.requires g _ C X v hf
      · rw [if_neg hab]
    · intro a _
      rw [hc]
      by_cases hab : a = b
      · subst hab; rw [if_pos rfl]; exact hN.fit g _ C X v hf
      · rw [if_neg hab]
    · intro a _ hr C' X'
      rw [hc]
      by_cases hab : a = b
      · subst hab; rw [if_pos rfl]; exact hR.sieveSame g _ C X v hf hr C' X'
      · rw [if_neg hab]
  | editIss _ b i =>
    refine RefitSame.of_eq (fun _ _ => rfl) (fun a ha => ?_) (fun _ _ => rfl) (fun _ _ => rfl)
    have : a ≠ b := by rintro rfl; exact (he a ha).1 rfl
    exact Function.update_of_ne this _ _
  | editWords _ b ws =>
    refine RefitSame.of_eq (fun _ _ => rfl) (fun _ _ => rfl) (fun a ha => ?_) (fun _ _ => rfl)
    have : (w.iss a).2 ≠ b := by intro h; exact (he a ha).2 (by rw [h])
    exact Function.update_of_ne this _ _
  | _ => exact RefitSame.of_eq (fun _ _ => rfl) (fun _ _ => rfl) (fun _ _ => rfl) (fun _ _ => rfl)

theorem Steps.refitSame {K : Sem R P I W S V} (hR : K.Refits) (hN : K.KeepsN) {B : Ref → Prop} {A : Touch → Prop}
    {w w' : World R P I W S} (h : Steps K B A w w') {ps is ss : List ℕ} (hps : ∀ a ∈ ps, a < w.nPrep) (his : ∀ a ∈ is, a < w.nIss)
    (hws : ∀ a ∈ is, (w.iss a).2 < w.nWords) (hss : ∀ a ∈ ss, a < w.nSieve)
    (he : ∀ a ∈ is, ¬ A (.edit a) ∧ ¬ A (.words (w.iss a).2)) : RefitSame K ps is ss w w' := by
  induction h with
  | refl => exact RefitSame.refl K ps is ss _
  | tail h1 hl hm ih =>
    have ih := ih
    have g := h1.grows
    refine ih.trans' (hm.refitSame hR hN (fun a ha => (hps a ha).trans_le g.prep) (fun a ha => (his a ha).trans_le g.iss)
      (fun a ha => ?_) (fun a ha => (hss a ha).trans_le g.sieve) fun a ha => ⟨?_, ?_⟩)
    · rw [ih.addr a ha]; exact (hws a ha).trans_le g.words
    · rintro rfl; exact (he a ha).1 hl
    · intro e; rw [ih.addr a ha] at e; rw [e] at hl; exact (he a ha).2 hl

/-- The call does not change the settings of an ISS object in `is` or its words in place. -/
def Op.Edits (w : World R P I W S) (is : List ℕ) : Op R P I W S → Prop
  | .editIss a _ => a ∈ is
  | .editWords b _ => ∃ a ∈ is, b = (w.iss a).2
  | _ => False

theorem Op.touches_edit {w : World R P I W S} {is : List ℕ} {o : Op R P I W S} (h : ¬ o.Edits w is) :
    ∀ a ∈ is, ¬ o.Touches w (.edit a) ∧ ¬ o.Touches w (.words (w.iss a).2) := by
  intro a ha
  constructor
  · rintro (hf | hw)
    · exact hf
    · cases o with
      | editIss b i => cases hw; exact h ha
      | fruitAdd f args => rcases hw with hw | ⟨s, _, hw⟩ <;> cases hw
      | fruitFit f C X => rcases hw with hw | ⟨s, _, hw⟩ <;> cases hw
      | _ => first | exact hw | cases hw
  · rintro (hf | hw)
    · exact hf
    · cases o with
      | editWords b ws => cases hw; exact h ⟨a, ha, rfl⟩
      | fruitAdd f args => rcases hw with hw | ⟨s, _, hw⟩ <;> cases hw
      | fruitFit f C X => rcases hw with hw | ⟨s, _, hw⟩ <;> cases hw
      | _ => first | exact hw | cases hw

theorem Hist.refitSame {K : Sem R P I W S V} (hR : K.Refits) (hN : K.KeepsN) {ρ : ℕ → Rng R} {w w₁ : World R P I W S}
    {ops : List (Op R P I W S)} (h : Hist K ρ w ops w₁) (hw : w.WF) {ps is ss : List ℕ} (hps : ∀ a ∈ ps, a < w.nPrep)
    (his : ∀ a ∈ is, a < w.nIss) (hss : ∀ a ∈ ss, a < w.nSieve) (he : ∀ o ∈ ops, ¬ o.Edits w is) :
    RefitSame K ps is ss w w₁ ∧ Grows w w₁ := by
  induction h with
  | nil => exact ⟨RefitSame.refl K ps is ss _, Grows.refl _⟩
  | @snoc ops w₁ o h1 hl ih =>
    obtain ⟨ih, g⟩ := ih fun o ho => he o (by simp [ho])
    have hw1 := h1.wf hw
    have hst := step_steps K ρ o w₁ hl hw1
    have hne : ¬ o.Edits w₁ is := by
      have := he o (by simp)
      cases o with
      | editIss a i => exact this
      | editWords b ws =>
        rintro ⟨a, ha, hb⟩
        exact this ⟨a, ha, by rw [hb, ih.addr a ha]⟩
      | _ => exact this
    refine ⟨ih.trans' (hst.refitSame hR hN (fun a ha => (hps a ha).trans_le g.prep) (fun a ha => (his a ha).trans_le g.iss)
      (fun a ha => hw1.words a ((his a ha).trans_le g.iss)) (fun a ha => (hss a ha).trans_le g.sieve)
      (Op.touches_edit hne)), g.trans hst.grows⟩

theorem Hist.append {K : Sem R P I W S V} {ρ : ℕ → Rng R} {w w₁ w₂ : World R P I W S} {ops later : List (Op R P I W S)}
    (h : Hist K ρ w ops w₁) (h' : Hist K ρ w₁ later w₂) : Hist K ρ w (ops ++ later) w₂ := by
  induction h' with
  | nil => simpa using h
  | snoc o _ hl ih => rw [← List.append_assoc]; exact ih.snoc o hl

theorem RefitSame.alike {K : Sem R P I W S V} {w w' : World R P I W S} {s : ℕ} (hc : (w.slice s).SameConf (w'.slice s))
    (h : RefitSame K (w.slice s).preps (w.slice s).iss (w.slice s).sieves w w') : Alike K w w' s where
  conf := hc
  prep := h.prep
  words := fun a ha => by rw [World.issAt, World.issAt, h.addr a ha]; exact h.words a ha
  requires := h.requires
  iss := h.iss
  same := h.same
  copy := h.copy
  req := h.req
  num := h.num
  trans := h.trans

/-! ### `transform` after `fit` -/

theorem itemLoop_sieves {K : Sem R P I W S V} {n : ℕ} {C : Data R} {ext : List (List S)} {sv sv' : List S}
    (h : ext = [] → sv.map K.sieveN = sv'.map K.sieveN ∧
      ∀ it D k, sieveLoop K n C it sv' D k = sieveLoop K n C it sv D k) :
    ∀ (its : List (List (List R))) (e : Option Err) (i : ℕ) (D : List (List V)) (k : ℤ),
      itemLoop K n C ext sv' its e i D k = itemLoop K n C ext sv its e i D k
  | [], none, _, _, _ => rfl
  | [], some _, _, _, _ => rfl
  | it :: its, e, i, D, k => by
    rw [itemLoop, itemLoop]
    cases ext with
    | nil =>
      simp only [sievesFor, List.isEmpty_nil, if_true, (h rfl).2]
      rcases sieveLoop K n C it sv D k with ⟨e' | ⟨D', k'⟩, tr⟩
      · rfl
      · simp only [itemLoop_sieves h its e (i + 1) D' k']
    | cons r rs =>
      simp only [sievesFor, List.isEmpty_cons, Bool.false_eq_true, if_false]
      rcases (r :: rs)[i]? with _ | row
      · rfl
      · simp only
        rcases sieveLoop K n C it row D k with ⟨e' | ⟨D', k'⟩, tr⟩
        · rfl
        · simp only [itemLoop_sieves h its e (i + 1) D' k']

theorem sieveLoop_same {K : Sem R P I W S V} {n : ℕ} {C : Data R} {it : List (List R)} {f g : ℕ → S} : ∀ (as : List ℕ),
    (∀ a ∈ as, K.sieveN (g a) = K.sieveN (f a) ∧ K.sieveTransform (g a) C it = K.sieveTransform (f a) C it) →
    ∀ (D : List (List V)) (k : ℤ), sieveLoop K n C it (as.map g) D k = sieveLoop K n C it (as.map f) D k
  | [], _, _, _ => rfl
  | a :: as, h, D, k => by
    rw [List.map_cons, List.map_cons, sieveLoop, sieveLoop, (h a (List.mem_cons_self ..)).1, (h a (List.mem_cons_self ..)).2]
    rcases K.sieveTransform (f a) C it with e | A
    · rfl
    simp only
    rcases setCols D k (k + K.sieveN (f a)) A with e | D'
    · rfl
    simp only [sieveLoop_same as (fun b hb => h b (List.mem_cons_of_mem _ hb)) D' (k + K.sieveN (f a))]

/-- Two slices with the same attributes and the same fitted preparateurs and ISS objects compute the same features, if they
have fitted sieves, or their sieves are equivalent, or there are no iterated sums. -/
theorem sliceTransform_weak {K : Sem R P I W S V} (hC : K.CountsRight) {w w' : World R P I W S} {s : ℕ}
    (h1 : w'.slice s = w.slice s) (h2 : ∀ a ∈ (w.slice s).preps, w'.prep a = w.prep a)
    (h3 : ∀ a ∈ (w.slice s).iss, w'.issAt a = w.issAt a)
    (h4 : ∀ a ∈ (w.slice s).sieves, K.sieveN (w'.sieve a) = K.sieveN (w.sieve a))
    (h5 : (w.slice s).ext = [] → (∀ a ∈ (w.slice s).sieves, ∀ C X, K.sieveTransform (w'.sieve a) C X = K.sieveTransform (w.sieve a) C X) ∨
      ∃ C Y is, iterateIss K C is Y = ([], none) ∧
        is.map (fun i => K.issCount i.1 i.2) = ((w.slice s).iss.map w.issAt).map fun i => K.issCount i.1 i.2)
    {n : ℕ} {C X : Data R} {A : List (List V)} {tr : Trace R V} (h : sliceTransform K w n s C X = (.ok A, tr)) :
    sliceTransform K w' n s C X = (.ok A, tr) := by
  have hiss : (w'.slice s).iss.map w'.issAt = (w.slice s).iss.map w.issAt := by rw [h1]; exact List.map_congr_left h3
  have hcount : sliceCount K w' s = sliceCount K w s := by rw [sliceCount_map, sliceCount_map, hiss]
  have htot : sieveTotal K w' s = sieveTotal K w s := by
    rw [sieveTotal, sieveTotal, h1]; exact congrArg List.sum (List.map_congr_left h4)
  have hN : sliceN K w' s = sliceN K w s := by rw [sliceN, sliceN, hcount, htot]
  rw [sliceTransform] at h ⊢
  rw [h1, transformPreps_congr K n C _ X h2]
  by_cases hf : (w.slice s).fitted = true
  swap
  · rw [if_neg hf] at h; simp at h
  rw [if_pos hf] at h ⊢
  rcases hT : transformPreps K w n C (w.slice s).preps X with ⟨e | Y, tr0⟩
  · rw [hT] at h; simp at h
  rw [hT] at h
  simp only [Prod.mk.injEq] at h ⊢
  suffices hs : ∀ B t, transformSieve K w n s C Y = (.ok B, t) → transformSieve K w' n s C Y = (.ok B, t) by
    have := hs A _ (Prod.ext h.1 rfl)
    rw [this]
    exact ⟨rfl, h.2⟩
  intro B t hB
  rw [transformSieve] at hB ⊢
  rw [hN, hiss, h1]
  rcases hD : sliceN K w s >>= zerosE K Y.length with e | D
  · rw [hD] at hB; simp at hB
  rw [hD] at hB
  simp only at hB ⊢
  by_cases hcase : (w.slice s).ext = [] → ∀ a ∈ (w.slice s).sieves, ∀ C X, K.sieveTransform (w'.sieve a) C X = K.sieveTransform (w.sieve a) C X
  · rw [itemLoop_sieves (sv := (w.slice s).sieves.map w.sieve) (sv' := (w.slice s).sieves.map w'.sieve)]
    · exact hB
    · intro hx
      refine ⟨?_, fun it D k => ?_⟩
      · rw [List.map_map, List.map_map]
        exact (List.map_congr_left fun a ha => h4 a ha).symm
      · exact sieveLoop_same _ (fun a ha => ⟨h4 a ha, hcase hx a ha _ _⟩) D k
  · push Not at hcase
    obtain ⟨hx, hcase⟩ := hcase
    obtain ⟨C₀, Y₀, is₀, hit, hcs⟩ := (h5 hx).resolve_left (by push Not; exact hcase)
    rcases hits : iterateIss K C ((w.slice s).iss.map w.issAt) Y with ⟨its, e⟩
    rw [hits] at hB
    simp only at hB ⊢
    have hnil : its = [] := by
      have hcnt : ∃ ns, ((w.slice s).iss.map w.issAt).mapM (fun i => K.issCount i.1 i.2) = .ok ns := by
        rcases hm : ((w.slice s).iss.map w.issAt).mapM (fun i => K.issCount i.1 i.2) with e' | ns
        · exfalso
          rw [sliceN, sliceCount_map, hm] at hD
          simp [bind, Except.bind] at hD
        · exact ⟨ns, hm⟩
      obtain ⟨ns, hns⟩ := hcnt
      have hz : ns.prod = 0 := by
        have hns₀ : is₀.mapM (fun i => K.issCount i.1 i.2) = .ok ns := by
          have e : ∀ l : List (I × W), l.mapM (fun i => K.issCount i.1 i.2) = (l.map fun i => K.issCount i.1 i.2).mapM id := by
            intro l; rw [mapM_map]; rfl
          rw [e, hcs, ← e]; exact hns
        have := (C74_chain K hC C₀ _ Y₀ [] hit ns hns₀).2
        simpa using this.symm
      cases e with
      | none => 
        have := (C74_chain K hC C _ Y its hits ns hns).2
        rw [hz] at this
        exact List.length_eq_zero_iff.1 this
      | some e =>
        exfalso
        have herr : ∀ (its : List (List (List R))) (i : ℕ) (D : List (List V)) (k : ℤ) (B : List (List V)),
            (itemLoop K n C (w.slice s).ext ((w.slice s).sieves.map w.sieve) its (some e) i D k).1 ≠ .ok B := by
          intro its
          induction its with
          | nil => intro i D k B; simp [itemLoop]
          | cons it its ih =>
            intro i D k B
            rw [itemLoop]
            rcases sievesFor (w.slice s).ext ((w.slice s).sieves.map w.sieve) i with e' | row
            · simp
            simp only
            rcases sieveLoop K n C it row D k with ⟨e' | ⟨D', k'⟩, tr'⟩
            · simp
            · exact ih _ _ _ _
        rcases hl : itemLoop K n C (w.slice s).ext ((w.slice s).sieves.map w.sieve) its (some e) 0 D 0 with ⟨e' | B', tr'⟩
        · rw [hl] at hB; simp at hB
        · exact herr its 0 D 0 B' (by rw [hl])
    subst hnil
    cases e with
    | none => simpa [itemLoop] using hB
    | some e => simp [itemLoop] at hB

/-- What two worlds have to agree on for a slice to compute the same features in both. -/
structure SameFeatures (K : Sem R P I W S V) (w w' : World R P I W S) (s : ℕ) : Prop where
  slice : w'.slice s = w.slice s
  preps : ∀ a ∈ (w.slice s).preps, w'.prep a = w.prep a
  iss : ∀ a ∈ (w.slice s).iss, w'.issAt a = w.issAt a
  num : ∀ a ∈ (w.slice s).sieves, K.sieveN (w'.sieve a) = K.sieveN (w.sieve a)
  trans : (w.slice s).ext = [] →
    (∀ a ∈ (w.slice s).sieves, ∀ C X, K.sieveTransform (w'.sieve a) C X = K.sieveTransform (w.sieve a) C X) ∨
      ∃ C Y is, iterateIss K C is Y = ([], none) ∧
        is.map (fun i => K.issCount i.1 i.2) = ((w.slice s).iss.map w.issAt).map fun i => K.issCount i.1 i.2

theorem SameFeatures.symm {K : Sem R P I W S V} {w w' : World R P I W S} {s : ℕ} (h : SameFeatures K w w' s) : SameFeatures K w' w s where
  slice := h.slice.symm
  preps := fun a ha => (h.preps a (by rw [← h.slice]; exact ha)).symm
  iss := fun a ha => (h.iss a (by rw [← h.slice]; exact ha)).symm
  num := fun a ha => (h.num a (by rw [← h.slice]; exact ha)).symm
  trans := fun hx => by
    rw [h.slice] at hx ⊢
    rcases h.trans hx with h1 | ⟨C, Y, is, h1, h2⟩
    · exact Or.inl fun a ha C X => (h1 a ha C X).symm
    · refine Or.inr ⟨C, Y, is, h1, ?_⟩
      rw [h2, List.map_congr_left h.iss]

theorem SameFeatures.sliceN {K : Sem R P I W S V} {w w' : World R P I W S} {s : ℕ} (h : SameFeatures K w w' s) :
    sliceN K w' s = sliceN K w s := by
  have hiss : (w'.slice s).iss.map w'.issAt = (w.slice s).iss.map w.issAt := by rw [h.slice]; exact List.map_congr_left h.iss
  rw [Fruits.sliceN, Fruits.sliceN, sliceCount_map, sliceCount_map, hiss, sieveTotal, sieveTotal, h.slice, List.map_congr_left h.num]

theorem SameFeatures.sliceTransform {K : Sem R P I W S V} (hC : K.CountsRight) {w w' : World R P I W S} {s : ℕ}
    (h : SameFeatures K w w' s) (n : ℕ) (C X : Data R) (A : List (List V)) (tr : Trace R V) :
    sliceTransform K w' n s C X = (.ok A, tr) ↔ sliceTransform K w n s C X = (.ok A, tr) :=
  ⟨sliceTransform_weak hC h.symm.slice h.symm.preps h.symm.iss h.symm.num h.symm.trans,
    sliceTransform_weak hC h.slice h.preps h.iss h.num h.trans⟩

theorem slicesLoop_weak {K : Sem R P I W S V} (hC : K.CountsRight) {w w' : World R P I W S} {n : ℕ} {C X : Data R} : ∀ (ss : List ℕ),
    (∀ s ∈ ss, SameFeatures K w w' s) → ∀ (D : List (List V)) (k : ℤ) (B : List (List V)) (tr : Trace R V),
    slicesLoop K w n C X ss D k = (.ok B, tr) → slicesLoop K w' n C X ss D k = (.ok B, tr)
  | [], _, _, _, _, _, h => h
  | s :: ss, hs, D, k, B, tr, h => by
    have h1 := hs s (List.mem_cons_self ..)
    rw [slicesLoop] at h ⊢
    rw [h1.sliceN]
    rcases hN : sliceN K w s with e | N
    · rw [hN] at h; simp at h
    rw [hN] at h
    simp only at h ⊢
    rcases hT : sliceTransform K w n s C X with ⟨e | A, tr1⟩
    · rw [hT] at h; simp at h
    rw [hT] at h
    rw [(h1.sliceTransform hC n C X A tr1).2 hT]
    simp only at h ⊢
    rcases hS : setCols D k (k + N) A with e | D'
    · rw [hS] at h; simp at h
    rw [hS] at h
    simp only [Prod.mk.injEq] at h ⊢
    have ih := slicesLoop_weak hC ss (fun t ht => hs t (List.mem_cons_of_mem _ ht)) D' (k + N) B _ (Prod.ext h.1 rfl)
    rw [ih]
    exact ⟨rfl, h.2⟩

theorem fruitTransform_weak {K : Sem R P I W S V} (hC : K.CountsRight) {w w' : World R P I W S} {f : ℕ}
    (hsl : (w'.fruit f).slices = (w.fruit f).slices) (hfit : (w'.fruit f).fitted = (w.fruit f).fitted)
    (hs : ∀ s ∈ (w.fruit f).slices, SameFeatures K w w' s) {n : ℕ} {C X : Data R} {A : List (List V)} {tr : Trace R V}
    (h : fruitTransform K w n f C X = (.ok A, tr)) : fruitTransform K w' n f C X = (.ok A, tr) := by
  rw [fruitTransform] at h ⊢
  have hN : fruitN K w' f = fruitN K w f := by
    rw [fruitN, fruitN, hsl, mapM_congr_mem fun s hs' => (hs s hs').sliceN]
  rw [hfit, hN, hsl]
  by_cases hf : (w.fruit f).fitted = true
  swap
  · rw [if_neg hf] at h; simp at h
  rw [if_pos hf] at h ⊢
  rcases hD : (fruitN K w f >>= zerosE K X.length) with e | D
  · rw [hD] at h; simp at h
  rw [hD] at h
  simp only at h ⊢
  rcases hl : slicesLoop K w n C X (w.fruit f).slices D 0 with ⟨e | B, tr'⟩
  · rw [hl] at h; simp at h
  rw [slicesLoop_weak hC _ hs D 0 B tr' hl]
  rw [hl] at h
  exact h

/-- Two slices that look the same for `fit` give the same features after it. -/
theorem fit_alike {K : Sem R P I W S V} {ρ ρ' : ℕ → Rng R} {w w' : World R P I W S} {s : ℕ}
    (hA : Alike K w w' s) (hal : Aligned ρ ρ' w w') (he : (w.slice s).ext = [] ∨ anyRequires K w s = true)
    (he' : (w'.slice s).ext = [] ∨ anyRequires K w' s = true) (C X : Data R)
    (hok : (sliceFit K ρ s C X w).1 = .ok ()) :
    SameFeatures K (sliceFit K ρ s C X w).2 (sliceFit K ρ' s C X w').2 s := by
  obtain ⟨a1, a2⟩ := sliceFit_alike hA hal he he' C X
  obtain ⟨b1, b2, b3, b4, b4', b5, b6, _⟩ := a2 hok
  obtain ⟨c1, c2, c3, c4⟩ := b6
  have hreq : ∀ a ∈ (w.slice s).sieves, anyRequires K w s = false → K.sieveRequires (w.sieve a) = false := by
    intro a ha hr
    rw [anyRequires, List.any_eq_false] at hr
    simpa using hr a ha
  refine ⟨b1, fun a ha => ?_, fun a ha => ?_, fun a ha => ?_, fun hx => ?_⟩
  · rw [← c1] at ha; exact b2 a ha
  · rw [← c2] at ha; exact b3 a ha
  · rw [← c3] at ha; rw [b4, b4']; exact hA.num a ha
  · by_cases hr : anyRequires K w s = true
    · right
      obtain ⟨Y, hY⟩ := b5 hx hr
      exact ⟨C, Y, _, hY, by rw [c2]⟩
    · left
      intro a ha C X
      rw [← c3] at ha; rw [b4, b4']
      exact hA.trans a ha (hreq a ha (by simpa using hr)) C X

/-- **C77** for a slice.  Take the world after any history and let anything happen to the slice and its seeds: they are fitted,
seeds are added and cleared, as long as the slice consists of the same seeds again and no settings or words of its ISS objects
are edited.  A new `fit` with the same random numbers then has the same outcome as if nothing had happened, and all features
computed after it are the same. -/
theorem C77_slice_refit {K : Sem R P I W S V} (hC : K.CountsRight) (hN : K.KeepsN) (hR : K.Refits) {ρ : ℕ → Rng R}
    {w₀ w w₁ : World R P I W S} {ops later : List (Op R P I W S)} (h0 : w₀.Empty) (before : Hist K ρ w₀ ops w)
    (after : Hist K ρ w later w₁) {s : ℕ} (hs : s < w.nSlice) (hconf : (w.slice s).SameConf (w₁.slice s))
    (hedit : ∀ o ∈ later, ¬ o.Edits w (w.slice s).iss) {ρ₁ ρ₂ : ℕ → Rng R} (hdraw : ∀ k, ρ₂ (w₁.rnd + k) = ρ₁ (w.rnd + k))
    (C X : Data R) :
    (sliceFit K ρ₂ s C X w₁).1 = (sliceFit K ρ₁ s C X w).1 ∧
    ((sliceFit K ρ₁ s C X w).1 = .ok () → ∀ (n : ℕ) (C' X' : Data R) (A : List (List V)) (tr : Trace R V),
      sliceTransform K (sliceFit K ρ₂ s C X w₁).2 n s C' X' = (.ok A, tr) ↔
      sliceTransform K (sliceFit K ρ₁ s C X w).2 n s C' X' = (.ok A, tr)) := by
  have hwf := before.wf (World.WF.empty h0)
  obtain ⟨hsame, hg⟩ := after.refitSame hR hN hwf (hwf.preps s hs) (hwf.iss s hs) (hwf.sieves s hs) hedit
  have e1 := (ExtInv.hist hN before h0 s hs).1
  have e2 := (ExtInv.hist hN (before.append after) h0 s (hs.trans_le hg.slice)).1
  have hA := hsame.alike hconf
  refine ⟨(sliceFit_alike hA hdraw e1 e2 C X).1, fun hok n C' X' A tr => ?_⟩
  exact (fit_alike hA hdraw e1 e2 C X hok).sliceTransform hC n C' X' A tr

end Fruits
