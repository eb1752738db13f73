import Verif.Props.Units2
import Verif.Props.Fruit14
import Verif.Props.Warp3
import Verif.Props.Total5

/-! # C166: changing the unit of measurement, part 3: fruits -/

namespace Fruits
set_option linter.unusedSectionVars false

section generic

variable {R P I W S V : Type} [Field R] [LinearOrder R] [FloorRing R]

/-- Two data sets that make no difference as the data the cache belongs to. -/
structure Sem.SameCache (K : Sem R P I W S V) (C C' : Data R) (QP : P → Prop) (QI : I → Prop) : Prop where
  prepFit : ∀ g p X, K.prepFit g p C' X = K.prepFit g p C X
  prepTransform : ∀ p X, QP p → K.prepTransform p C' X = K.prepTransform p C X
  issFit : ∀ g i ws X, K.issFit g i ws C' X = K.issFit g i ws C X
  issKeep : ∀ g i ws X i', QI i → K.issFit g i ws C X = .ok i' → QI i'
  issGen : ∀ i ws X, QI i → K.issGen i ws C' X = K.issGen i ws C X
  sieveFit : ∀ g v X, K.sieveFit g v C' X = K.sieveFit g v C X
  sieveTransform : ∀ v X, K.sieveTransform v C' X = K.sieveTransform v C X

variable {K : Sem R P I W S V} {QP : P → Prop} {QI : I → Prop} {C C' : Data R}

theorem fitIss_same (hK : K.SameCache C C' QP QI) (ρ : ℕ → Rng R) (X : Data R) : ∀ (as : List ℕ) (w : World R P I W S),
    fitIss K ρ C' X as w = fitIss K ρ C X as w
  | [], _ => rfl
  | a :: as, w => by
    rw [fitIss, fitIss]
    by_cases hr : K.issRequires (w.issAt a).1 = true
    · rw [if_pos hr, if_pos hr, hK.issFit (ρ w.rnd) (w.issAt a).1 (w.issAt a).2 X]
      rcases hp : K.issFit (ρ w.rnd) (w.issAt a).1 (w.issAt a).2 C X with e | i
      · rfl
      · exact fitIss_same hK ρ X as _
    · rw [if_neg hr, if_neg hr]
      exact fitIss_same hK ρ X as w

theorem fitIss_class (hK : K.SameCache C C' QP QI) (ρ : ℕ → Rng R) (X : Data R) : ∀ (as : List ℕ) (w : World R P I W S) (a : ℕ),
    QI (w.iss a).1 → QI ((fitIss K ρ C X as w).2.iss a).1
  | [], w, a, h => h
  | b :: as, w, a, h => by
    rw [fitIss]
    by_cases hr : K.issRequires (w.issAt b).1 = true
    · rw [if_pos hr]
      rcases hp : K.issFit (ρ w.rnd) (w.issAt b).1 (w.issAt b).2 C X with e | i
      · exact h
      · refine fitIss_class hK ρ X as _ a ?_
        show QI (Function.update w.iss b (i, (w.iss b).2) a).1
        by_cases hba : a = b
        · subst hba; rw [Function.update_self]; exact hK.issKeep _ _ _ _ _ h hp
        · rw [Function.update_of_ne hba]; exact h
    · rw [if_neg hr]
      exact fitIss_class hK ρ X as w a h

theorem iterateIss_same (hK : K.SameCache C C' QP QI) : ∀ (is : List (I × W)) (X : Data R), (∀ i ∈ is, QI i.1) →
    iterateIss K C' is X = iterateIss K C is X
  | [], _, _ => rfl
  | i :: is, X, h => by
    rw [iterateIss, iterateIss, hK.issGen i.1 i.2 X (h i (List.mem_cons_self ..))]
    congr 1
    funext it
    exact iterateIss_same hK is _ fun j hj => h j (List.mem_cons_of_mem _ hj)

theorem fitSieves_same (hK : K.SameCache C C' QP QI) (ρ : ℕ → Rng R) (it : List (List R)) : ∀ (ss : List S) (r : ℕ),
    fitSieves K ρ C' it ss r = fitSieves K ρ C it ss r
  | [], _ => rfl
  | s :: ss, r => by
    rw [fitSieves, fitSieves, hK.sieveFit (ρ r) s it]
    rcases K.sieveFit (ρ r) s C it with e | s'
    · rfl
    · simp only
      rw [fitSieves_same hK ρ it ss (r + 1)]

theorem fitItems_same (hK : K.SameCache C C' QP QI) (ρ : ℕ → Rng R) (sv : List S) : ∀ (its : List (List (List R)))
    (e : Option Err) (r : ℕ), fitItems K ρ C' sv its e r = fitItems K ρ C sv its e r
  | [], _, _ => rfl
  | it :: its, e, r => by
    rw [fitItems, fitItems]
    rcases sv.mapM K.sieveCopy with e' | cs
    · rfl
    · simp only
      rw [fitSieves_same hK ρ it cs r]
      rcases fitSieves K ρ C it cs r with ⟨e' | row, r'⟩
      · rfl
      · simp only
        rw [fitItems_same hK ρ sv its e r']

theorem fitFinish_same (hK : K.SameCache C C' QP QI) (ρ : ℕ → Rng R) (s : ℕ) (X : Data R) (w : World R P I W S)
    (hi : ∀ a ∈ (w.slice s).iss, QI (w.iss a).1) : fitFinish K ρ s C' X w = fitFinish K ρ s C X w := by
  rw [fitFinish, fitFinish, iterateIss_same hK ((w.slice s).iss.map w.issAt) X (by
    intro i hmem
    obtain ⟨a, ha, rfl⟩ := List.mem_map.1 hmem
    exact hi a ha), fitItems_same hK ρ]

theorem sieveLoop_sameC (hK : K.SameCache C C' QP QI) (n : ℕ) (it : List (List R)) : ∀ (ss : List S) (D : List (List V)) (k : ℤ),
    sieveLoop K n C' it ss D k = sieveLoop K n C it ss D k
  | [], _, _ => rfl
  | s :: ss, D, k => by
    rw [sieveLoop, sieveLoop, hK.sieveTransform s it]
    rcases K.sieveTransform s C it with e | A
    · rfl
    · simp only
      rcases setCols D k (k + K.sieveN s) A with e | D'
      · rfl
      · simp only
        rw [sieveLoop_sameC hK n it ss D' _]

theorem itemLoop_sameC (hK : K.SameCache C C' QP QI) (n : ℕ) (ext : List (List S)) (sv : List S) : ∀ (its : List (List (List R))) (e : Option Err)
    (i : ℕ) (D : List (List V)) (k : ℤ), itemLoop K n C' ext sv its e i D k = itemLoop K n C ext sv its e i D k
  | [], none, _, _, _ => rfl
  | [], some e, _, _, _ => rfl
  | it :: its, e, i, D, k => by
    rw [itemLoop, itemLoop]
    rcases sievesFor ext sv i with e' | row
    · rfl
    · simp only
      rw [sieveLoop_sameC hK n it row D k]
      rcases sieveLoop K n C it row D k with ⟨e' | ⟨D', k'⟩, tr⟩
      · rfl
      · simp only
        rw [itemLoop_sameC hK n ext sv its e (i + 1) D' k']

theorem transformSieve_same (hK : K.SameCache C C' QP QI) (n s : ℕ) (X : Data R) (w : World R P I W S)
    (hi : ∀ a ∈ (w.slice s).iss, QI (w.iss a).1) : transformSieve K w n s C' X = transformSieve K w n s C X := by
  rw [transformSieve, transformSieve, iterateIss_same hK ((w.slice s).iss.map w.issAt) X (by
    intro i hmem
    obtain ⟨a, ha, rfl⟩ := List.mem_map.1 hmem
    exact hi a ha)]
  simp only [itemLoop_sameC hK n]

/-! ### Worlds in which some preparateurs have learned in another unit -/

/-- The world with the preparateurs in `D` changed by `φ`. -/
def World.convert (φ : P → P) (D : List ℕ) (w : World R P I W S) : World R P I W S :=
  { w with prep := fun a => if a ∈ D then φ (w.prep a) else w.prep a }

theorem convert_tick (φ : P → P) (D : List ℕ) (w : World R P I W S) : (w.convert φ D).tick = w.tick.convert φ D := rfl

theorem convert_set (φ : P → P) (D : List ℕ) (w : World R P I W S) (a : ℕ) (p : P) :
    (w.convert φ D).setPrep a (φ p) = (w.setPrep a p).convert φ (a :: D) := by
  unfold World.convert World.setPrep
  dsimp only
  congr 1
  funext b
  by_cases h : b = a
  · subst h; simp
  · simp [h]

theorem convert_set_other (φ : P → P) (D : List ℕ) (w : World R P I W S) (a : ℕ) (p : P) (ha : a ∉ D) :
    (w.convert φ D).setPrep a p = (w.setPrep a p).convert φ D := by
  unfold World.convert World.setPrep
  dsimp only
  congr 1
  funext b
  by_cases h : b = a
  · subst h; simp [ha]
  · simp [h]

/-- What a change of the unit does to the classes of preparateurs: `σ` is the change of the data, `φ` that of what is learned. -/
structure Sem.Converts (K : Sem R P I W S V) (C C' : Data R) (σ : Data R → Data R) (φ : P → P) (Keeps Removes QP : P → Prop) : Prop where
  fit : ∀ g p X, Keeps p ∨ Removes p → K.prepFit g p C' (σ X) = (K.prepFit g p C X).map φ
  refit : ∀ g p C X, K.prepFit g (φ p) C X = K.prepFit g p C X
  fitKeeps : ∀ g p q C X, K.prepFit g p C X = .ok q → (Keeps p → Keeps q) ∧ (Removes p → Removes q) ∧ (QP p → QP q)
  keeps : ∀ p X, Keeps p → K.prepTransform (φ p) C' (σ X) = (K.prepTransform p C X).map σ
  removes : ∀ p X, Removes p → K.prepTransform (φ p) C' (σ X) = K.prepTransform p C X

variable {σ : Data R → Data R} {φ : P → P} {Keeps Removes : P → Prop}

theorem convert_fit (hc : K.Converts C C' σ φ Keeps Removes QP) (D : List ℕ) (w : World R P I W S) (a : ℕ) (g : Rng R) (C₁ X : Data R) :
    K.prepFit g ((w.convert φ D).prep a) C₁ X = K.prepFit g (w.prep a) C₁ X := by
  unfold World.convert
  dsimp only
  by_cases h : a ∈ D
  · rw [if_pos h]; exact hc.refit ..
  · rw [if_neg h]

/-- The classes of the preparateurs and of the ISS objects after a step. -/
structure KeepsClass (Keeps Removes QP : P → Prop) (QI : I → Prop) (w w' : World R P I W S) : Prop where
  keeps : ∀ a, Keeps (w.prep a) → Keeps (w'.prep a)
  removes : ∀ a, Removes (w.prep a) → Removes (w'.prep a)
  qp : ∀ a, QP (w.prep a) → QP (w'.prep a)
  qi : ∀ a, QI (w.iss a).1 → QI (w'.iss a).1
  fruit : w'.fruit = w.fruit
  slice : ∀ s, (w'.slice s).preps = (w.slice s).preps ∧ (w'.slice s).iss = (w.slice s).iss

theorem KeepsClass.refl (w : World R P I W S) : KeepsClass Keeps Removes QP QI w w :=
  ⟨fun _ h => h, fun _ h => h, fun _ h => h, fun _ h => h, rfl, fun _ => ⟨rfl, rfl⟩⟩

theorem KeepsClass.trans {w w₁ w₂ : World R P I W S} (h : KeepsClass Keeps Removes QP QI w w₁) (h' : KeepsClass Keeps Removes QP QI w₁ w₂) :
    KeepsClass Keeps Removes QP QI w w₂ :=
  ⟨fun a e => h'.keeps a (h.keeps a e), fun a e => h'.removes a (h.removes a e), fun a e => h'.qp a (h.qp a e), fun a e => h'.qi a (h.qi a e),
    h'.fruit.trans h.fruit, fun s => ⟨(h'.slice s).1.trans (h.slice s).1, (h'.slice s).2.trans (h.slice s).2⟩⟩

theorem KeepsClass.set (hc : K.Converts C C' σ φ Keeps Removes QP) {w : World R P I W S} {a : ℕ} {g : Rng R} {q : P} {C₁ X : Data R}
    (h : K.prepFit g (w.prep a) C₁ X = .ok q) : KeepsClass Keeps Removes QP QI w (w.tick.setPrep a q) := by
  have hk := hc.fitKeeps _ _ _ _ _ h
  have key : ∀ (Q : P → Prop), (Q (w.prep a) → Q q) → ∀ b, Q (w.prep b) → Q ((w.tick.setPrep a q).prep b) := by
    intro Q hQ b hb
    by_cases e : b = a
    · subst e; simpa [World.setPrep] using hQ hb
    · simpa [World.setPrep, World.tick, Function.update_of_ne e] using hb
  exact ⟨key _ hk.1, key _ hk.2.1, key _ hk.2.2, fun _ h => h, rfl, fun _ => ⟨rfl, rfl⟩⟩

theorem fitPreps_class (hc : K.Converts C C' σ φ Keeps Removes QP) (ρ : ℕ → Rng R) : ∀ (as : List ℕ) (X : Data R) (w : World R P I W S),
    KeepsClass Keeps Removes QP QI w (fitPreps K ρ C as X w).2
  | [], X, w => KeepsClass.refl w
  | a :: as, X, w => by
    rw [fitPreps]
    rcases hp : K.prepFit (ρ w.rnd) (w.prep a) C X with e | p
    · exact ⟨fun _ h => h, fun _ h => h, fun _ h => h, fun _ h => h, rfl, fun _ => ⟨rfl, rfl⟩⟩
    have hset : KeepsClass Keeps Removes QP QI w (w.tick.setPrep a p) := KeepsClass.set hc hp
    simp only
    rcases K.prepTransform p C X with e | Y
    · exact hset
    · exact hset.trans (fitPreps_class hc ρ as Y _)

theorem fitPreps_append (ρ : ℕ → Rng R) : ∀ (as bs : List ℕ) (X : Data R) (w : World R P I W S),
    fitPreps K ρ C (as ++ bs) X w = match fitPreps K ρ C as X w with
      | (.error e, w') => (.error e, w')
      | (.ok Y, w') => fitPreps K ρ C bs Y w'
  | [], bs, X, w => rfl
  | a :: as, bs, X, w => by
    rw [List.cons_append, fitPreps, fitPreps]
    rcases K.prepFit (ρ w.rnd) (w.prep a) C X with e | p
    · rfl
    simp only
    rcases K.prepTransform p C X with e | Y
    · rfl
    · exact fitPreps_append ρ as bs Y _

/-- Fitting the leading preparateurs. -/
theorem fitPreps_lead (hc : K.Converts C C' σ φ Keeps Removes QP) (ρ : ℕ → Rng R) : ∀ (as : List ℕ) (X : Data R) (w : World R P I W S) (D : List ℕ),
    (∀ a ∈ as, Keeps (w.prep a)) →
    ∃ D', fitPreps K ρ C' as (σ X) (w.convert φ D) = ((fitPreps K ρ C as X w).1.map σ, (fitPreps K ρ C as X w).2.convert φ D') ∧
      (∀ b ∈ D, b ∈ D') ∧ (∀ b ∈ D', b ∈ D ∨ b ∈ as) ∧ ∀ Y, (fitPreps K ρ C as X w).1 = .ok Y → ∀ b ∈ as, b ∈ D'
  | [], X, w, D, _ => ⟨D, rfl, fun _ h => h, fun _ h => Or.inl h, fun _ _ b hb => by simp at hb⟩
  | a :: as, X, w, D, hk => by
    rw [fitPreps, fitPreps]
    have ha := hk a (List.mem_cons_self ..)
    have hf : K.prepFit (ρ (w.convert φ D).rnd) ((w.convert φ D).prep a) C' (σ X) = (K.prepFit (ρ w.rnd) (w.prep a) C X).map φ := by
      rw [convert_fit hc]; exact hc.fit _ _ _ (Or.inl ha)
    rw [hf]
    rcases hp : K.prepFit (ρ w.rnd) (w.prep a) C X with e | p
    · exact ⟨D, rfl, fun _ h => h, fun _ h => Or.inl h, fun _ h => by cases h⟩
    have hkp := (hc.fitKeeps _ _ _ _ _ hp).1 ha
    simp only [Except.map]
    rw [hc.keeps p X hkp, convert_tick, convert_set]
    rcases ht : K.prepTransform p C X with e | Z
    · refine ⟨a :: D, rfl, fun b hb => List.mem_cons_of_mem _ hb, fun b hb => ?_, fun _ h => by cases h⟩
      rcases List.mem_cons.1 hb with rfl | hb
      · exact Or.inr (List.mem_cons_self ..)
      · exact Or.inl hb
    simp only [Except.map]
    have hcl : KeepsClass Keeps Removes QP (fun _ : I => True) w (w.tick.setPrep a p) := KeepsClass.set hc hp
    obtain ⟨D', h1, h2, h3, h4⟩ := fitPreps_lead hc ρ as Z (w.tick.setPrep a p) (a :: D)
      (fun b hb => hcl.keeps b (hk b (List.mem_cons_of_mem _ hb)))
    refine ⟨D', h1, fun b hb => h2 b (List.mem_cons_of_mem _ hb), fun b hb => ?_, fun Y hY b hb => ?_⟩
    · rcases h3 b hb with hb | hb
      · rcases List.mem_cons.1 hb with rfl | hb
        · exact Or.inr (List.mem_cons_self ..)
        · exact Or.inl hb
      · exact Or.inr (List.mem_cons_of_mem _ hb)
    · rcases List.mem_cons.1 hb with rfl | hb
      · exact h2 b (List.mem_cons_self ..)
      · exact h4 Y hY b hb

/-- Fitting the preparateurs that come after the unit has been removed. -/
theorem fitPreps_rest (hS : K.SameCache C C' QP QI) (hc : K.Converts C C' σ φ Keeps Removes QP) (ρ : ℕ → Rng R) :
    ∀ (as : List ℕ) (X : Data R) (w : World R P I W S) (D : List ℕ), (∀ a ∈ as, QP (w.prep a) ∧ a ∉ D) →
    fitPreps K ρ C' as X (w.convert φ D) = ((fitPreps K ρ C as X w).1, (fitPreps K ρ C as X w).2.convert φ D)
  | [], X, w, D, _ => rfl
  | a :: as, X, w, D, hk => by
    rw [fitPreps, fitPreps]
    have ha := hk a (List.mem_cons_self ..)
    have hf : K.prepFit (ρ (w.convert φ D).rnd) ((w.convert φ D).prep a) C' X = K.prepFit (ρ w.rnd) (w.prep a) C X := by
      rw [convert_fit hc, hS.prepFit]; rfl
    rw [hf]
    rcases hp : K.prepFit (ρ w.rnd) (w.prep a) C X with e | p
    · rfl
    simp only
    have hkp := (hc.fitKeeps _ _ _ _ _ hp).2.2 ha.1
    rw [hS.prepTransform p X hkp, convert_tick, convert_set_other _ _ _ _ _ ha.2]
    rcases ht : K.prepTransform p C X with e | Z
    · rfl
    have hcl : KeepsClass Keeps Removes QP (fun _ : I => True) w (w.tick.setPrep a p) := KeepsClass.set hc hp
    exact fitPreps_rest hS hc ρ as Z (w.tick.setPrep a p) D
      (fun b hb => ⟨hcl.qp b (hk b (List.mem_cons_of_mem _ hb)).1, (hk b (List.mem_cons_of_mem _ hb)).2⟩)

/-- A slice in which the unit is removed: leading preparateurs that keep it, one that removes it, and any others.  The objects of the first two
kinds are in `A`, the others are not (an object that is used both before and after the unit is removed learns twice, in different units). -/
structure UnitSlice (Keeps Removes QP : P → Prop) (QI : I → Prop) (A : ℕ → Prop) (w : World R P I W S) (s : ℕ) : Prop where
  preps : ∃ pre r post, (w.slice s).preps = pre ++ r :: post ∧ (∀ a ∈ pre, Keeps (w.prep a) ∧ A a) ∧ (Removes (w.prep r) ∧ A r) ∧
    ∀ a ∈ post, QP (w.prep a) ∧ ¬ A a
  iss : ∀ a ∈ (w.slice s).iss, QI (w.iss a).1

theorem UnitSlice.step {A : ℕ → Prop} {w w' : World R P I W S} {s : ℕ} (h : UnitSlice Keeps Removes QP QI A w s)
    (hk : KeepsClass Keeps Removes QP QI w w') : UnitSlice Keeps Removes QP QI A w' s where
  preps := by
    obtain ⟨pre, r, post, h1, h2, h3, h4⟩ := h.preps
    exact ⟨pre, r, post, (hk.slice s).1.trans h1, fun a ha => ⟨hk.keeps a (h2 a ha).1, (h2 a ha).2⟩, ⟨hk.removes r h3.1, h3.2⟩,
      fun a ha => ⟨hk.qp a (h4 a ha).1, (h4 a ha).2⟩⟩
  iss := fun a ha => hk.qi a (h.iss a (by rw [← (hk.slice s).2]; exact ha))

theorem fitFinish_class (ρ : ℕ → Rng R) (s : ℕ) (X : Data R) (w : World R P I W S) : KeepsClass Keeps Removes QP QI w (fitFinish K ρ s C X w).2 := by
  have key : ∀ (rows : List (List S)) (b : Bool) (r : ℕ),
      KeepsClass Keeps Removes QP QI w { w.setSlice s { w.slice s with ext := rows, fitted := b } with rnd := r } := by
    intro rows b r
    refine ⟨fun _ h => h, fun _ h => h, fun _ h => h, fun _ h => h, rfl, fun t => ?_⟩
    by_cases ht : t = s
    · subst ht; simp [World.setSlice]
    · simp [World.setSlice, Function.update_of_ne ht]
  rw [fitFinish]
  by_cases hr : anyRequires K w s = true
  · rw [if_pos hr]
    rcases hm : fitItems K ρ C ((w.slice s).sieves.map w.sieve) (iterateIss K C ((w.slice s).iss.map w.issAt) X).1
        (iterateIss K C ((w.slice s).iss.map w.issAt) X).2 w.rnd with ⟨⟨rows, _ | e⟩, r⟩
    · exact key rows true r
    · exact key rows (w.slice s).fitted r
  · rw [if_neg hr]
    exact key (w.slice s).ext true w.rnd

theorem fitIss_class' (hS : K.SameCache C C' QP QI) (ρ : ℕ → Rng R) (X : Data R) (as : List ℕ) (w : World R P I W S) :
    KeepsClass Keeps Removes QP QI w (fitIss K ρ C X as w).2 := by
  have hp : ∀ (as : List ℕ) (w : World R P I W S), (fitIss K ρ C X as w).2.prep = w.prep ∧ (fitIss K ρ C X as w).2.fruit = w.fruit ∧
      (fitIss K ρ C X as w).2.slice = w.slice := by
    intro as
    induction as with
    | nil => intro w; exact ⟨rfl, rfl, rfl⟩
    | cons a as ih =>
      intro w
      rw [fitIss]
      by_cases hr : K.issRequires (w.issAt a).1 = true
      · rw [if_pos hr]
        rcases K.issFit (ρ w.rnd) (w.issAt a).1 (w.issAt a).2 C X with e | i
        · exact ⟨rfl, rfl, rfl⟩
        · exact ih _
      · rw [if_neg hr]; exact ih w
  obtain ⟨h1, h2, h3⟩ := hp as w
  refine ⟨fun a h => by rw [h1]; exact h, fun a h => by rw [h1]; exact h, fun a h => by rw [h1]; exact h, fun a h => fitIss_class hS ρ X as w a h, h2,
    fun s => by rw [h3]; exact ⟨rfl, rfl⟩⟩

theorem fitIss_convert (ρ : ℕ → Rng R) (X : Data R) (D : List ℕ) : ∀ (as : List ℕ) (w : World R P I W S),
    fitIss K ρ C X as (w.convert φ D) = ((fitIss K ρ C X as w).1, (fitIss K ρ C X as w).2.convert φ D)
  | [], w => rfl
  | a :: as, w => by
    rw [fitIss, fitIss]
    have e1 : (w.convert φ D).issAt a = w.issAt a := rfl
    rw [e1]
    by_cases hr : K.issRequires (w.issAt a).1 = true
    · rw [if_pos hr, if_pos hr]
      have e2 : (w.convert φ D).rnd = w.rnd := rfl
      rw [e2]
      rcases K.issFit (ρ w.rnd) (w.issAt a).1 (w.issAt a).2 C X with e | i
      · rfl
      · exact fitIss_convert ρ X D as (w.tick.setIss a i)
    · rw [if_neg hr, if_neg hr]
      exact fitIss_convert ρ X D as w

theorem fitFinish_convert (ρ : ℕ → Rng R) (s : ℕ) (X : Data R) (D : List ℕ) (w : World R P I W S) :
    fitFinish K ρ s C X (w.convert φ D) = ((fitFinish K ρ s C X w).1, (fitFinish K ρ s C X w).2.convert φ D) := by
  have e1 : anyRequires K (w.convert φ D) s = anyRequires K w s := rfl
  have e2 : (w.convert φ D).slice = w.slice := rfl
  have e3 : (w.convert φ D).sieve = w.sieve := rfl
  have e4 : (w.convert φ D).issAt = w.issAt := rfl
  have e5 : (w.convert φ D).rnd = w.rnd := rfl
  rw [fitFinish, fitFinish, e1, e2, e3, e4, e5]
  by_cases hr : anyRequires K w s = true
  · rw [if_pos hr, if_pos hr]
    rcases fitItems K ρ C ((w.slice s).sieves.map w.sieve) (iterateIss K C ((w.slice s).iss.map w.issAt) X).1
        (iterateIss K C ((w.slice s).iss.map w.issAt) X).2 w.rnd with ⟨⟨rows, _ | e⟩, r⟩
    · rfl
    · rfl
  · rw [if_neg hr, if_neg hr]; rfl

/-- Fitting the preparateurs of a slice on data in another unit. -/
theorem slicePreps_unit (hS : K.SameCache C C' QP QI) (hc : K.Converts C C' σ φ Keeps Removes QP) (ρ : ℕ → Rng R) {A : ℕ → Prop}
    {w : World R P I W S} {pre post : List ℕ} {r : ℕ} (hpre : ∀ a ∈ pre, Keeps (w.prep a) ∧ A a) (hr : Removes (w.prep r) ∧ A r)
    (hpost : ∀ a ∈ post, QP (w.prep a) ∧ ¬ A a) (Z : Data R) {D : List ℕ} (hD : ∀ a ∈ D, A a) :
    ∃ D', fitPreps K ρ C' (pre ++ r :: post) (σ Z) (w.convert φ D) =
        ((fitPreps K ρ C (pre ++ r :: post) Z w).1, (fitPreps K ρ C (pre ++ r :: post) Z w).2.convert φ D') ∧ (∀ a ∈ D', A a) ∧
      (∀ a ∈ D, a ∈ D') ∧ ∀ Y, (fitPreps K ρ C (pre ++ r :: post) Z w).1 = .ok Y → ∀ a ∈ pre ++ r :: post, A a → a ∈ D' := by
  rw [fitPreps_append, fitPreps_append]
  obtain ⟨D1, h1, h2, h3, h4⟩ := fitPreps_lead hc ρ pre Z w D (fun a ha => (hpre a ha).1)
  have hA1 : ∀ a ∈ D1, A a := fun a ha => (h3 a ha).elim (hD a) fun h => (hpre a h).2
  have c1 := fitPreps_class (QI := QI) hc ρ pre Z w
  rw [h1]
  rcases hp1 : fitPreps K ρ C pre Z w with ⟨e | Y1, v1⟩
  · exact ⟨D1, rfl, hA1, h2, fun _ h => by cases h⟩
  rw [hp1] at c1 h4
  simp only [Except.map] at c1 h4 ⊢
  rw [fitPreps, fitPreps]
  have hr1 : Removes (v1.prep r) := c1.removes r hr.1
  have hf : K.prepFit (ρ (v1.convert φ D1).rnd) ((v1.convert φ D1).prep r) C' (σ Y1) = (K.prepFit (ρ v1.rnd) (v1.prep r) C Y1).map φ := by
    rw [convert_fit hc]; exact hc.fit _ _ _ (Or.inr hr1)
  rw [hf]
  rcases hpr2 : K.prepFit (ρ v1.rnd) (v1.prep r) C Y1 with e | p
  · exact ⟨D1, rfl, hA1, h2, fun _ h => by cases h⟩
  simp only [Except.map]
  have hrp := (hc.fitKeeps _ _ _ _ _ hpr2).2.1 hr1
  rw [hc.removes p Y1 hrp, convert_tick, convert_set]
  have hA2 : ∀ a ∈ r :: D1, A a := by
    intro a ha
    rcases List.mem_cons.1 ha with rfl | ha
    · exact hr.2
    · exact hA1 a ha
  have hs2 : ∀ a ∈ D, a ∈ r :: D1 := fun a ha => List.mem_cons_of_mem _ (h2 a ha)
  rcases ht : K.prepTransform p C Y1 with e | Y2
  · exact ⟨r :: D1, rfl, hA2, hs2, fun _ h => by cases h⟩
  simp only
  have c2 : KeepsClass Keeps Removes QP QI v1 (v1.tick.setPrep r p) := KeepsClass.set hc hpr2
  refine ⟨r :: D1, fitPreps_rest hS hc ρ post Y2 (v1.tick.setPrep r p) (r :: D1)
    (fun a ha => ⟨c2.qp a (c1.qp a (hpost a ha).1), fun hm => (hpost a ha).2 (hA2 a hm)⟩), hA2, hs2, fun Y _ a ha hA => ?_⟩
  rcases List.mem_append.1 ha with hm | hm
  · exact List.mem_cons_of_mem _ (h4 Y1 rfl a hm)
  · rcases List.mem_cons.1 hm with rfl | hm
    · exact List.mem_cons_self ..
    · exact absurd hA (hpost a hm).2

/-- Fitting a slice on data in another unit: the same exception, or the same slice with what the leading preparateurs have learned expressed in
the new unit. -/
theorem sliceFit_unit (hS : K.SameCache C C' QP QI) (hc : K.Converts C C' σ φ Keeps Removes QP)
    (hσ : ∀ g k X, selectSample g k (σ X) = (selectSample g k X).map σ) (ρ : ℕ → Rng R) {A : ℕ → Prop} {w : World R P I W S} {s : ℕ}
    (hs : UnitSlice Keeps Removes QP QI A w s) (X : Data R) {D : List ℕ} (hD : ∀ a ∈ D, A a) :
    KeepsClass Keeps Removes QP QI w (sliceFit K ρ s C X w).2 ∧
    ∃ D', sliceFit K ρ s C' (σ X) (w.convert φ D) = ((sliceFit K ρ s C X w).1, (sliceFit K ρ s C X w).2.convert φ D') ∧ (∀ a ∈ D', A a) ∧
      (∀ a ∈ D, a ∈ D') ∧ ((sliceFit K ρ s C X w).1 = .ok () → ∀ a ∈ (w.slice s).preps, A a → a ∈ D') := by
  obtain ⟨pre, r, post, hpr, hpre, hr, hpost⟩ := hs.preps
  rw [sliceFit, sliceFit]
  have e2 : (w.convert φ D).slice = w.slice := rfl
  have e5 : (w.convert φ D).rnd = w.rnd := rfl
  rw [e2, e5]
  by_cases h1 : (w.slice s).iss = []
  · rw [if_pos h1, if_pos h1]; exact ⟨KeepsClass.refl w, D, rfl, hD, fun _ h => h, fun h => by cases h⟩
  rw [if_neg h1, if_neg h1]
  by_cases h2 : (w.slice s).sieves = []
  · rw [if_pos h2, if_pos h2]; exact ⟨KeepsClass.refl w, D, rfl, hD, fun _ h => h, fun h => by cases h⟩
  rw [if_neg h2, if_neg h2, hσ]
  have htick : KeepsClass Keeps Removes QP QI w w.tick := ⟨fun _ h => h, fun _ h => h, fun _ h => h, fun _ h => h, rfl, fun _ => ⟨rfl, rfl⟩⟩
  rcases hsel : selectSample (ρ w.rnd) (w.slice s).sample X with e | Z
  · exact ⟨htick, D, rfl, hD, fun _ h => h, fun h => by cases h⟩
  simp only [Except.map]
  have k1 := htick.trans (fitPreps_class (QI := QI) hc ρ (w.slice s).preps Z w.tick)
  obtain ⟨D', hfit, hA', hsub, hall⟩ := slicePreps_unit hS hc ρ (w := w.tick) hpre hr hpost Z hD
  rw [← hpr] at hfit hall
  rw [convert_tick, hfit]
  rcases hp : fitPreps K ρ C (w.slice s).preps Z w.tick with ⟨e | Y, w2⟩
  · rw [hp] at k1; exact ⟨k1, D', rfl, hA', hsub, fun h => by cases h⟩
  rw [hp] at k1 hall
  simp only at k1 hall ⊢
  rw [fitIss_same hS, fitIss_convert]
  have k2 := k1.trans (fitIss_class' hS ρ Y (w.slice s).iss w2)
  rcases hi : fitIss K ρ C Y (w.slice s).iss w2 with ⟨e | u, w3⟩
  · rw [hi] at k2; exact ⟨k2, D', rfl, hA', hsub, fun h => by cases h⟩
  rw [hi] at k2
  simp only at k2 ⊢
  have hq : ∀ a ∈ ((w3.convert φ D').slice s).iss, QI ((w3.convert φ D').iss a).1 := by
    intro a ha
    have : a ∈ (w.slice s).iss := by rw [← (k2.slice s).2]; exact ha
    exact k2.qi a (hs.iss a this)
  rw [fitFinish_same hS ρ s Y _ hq, fitFinish_convert]
  exact ⟨k2.trans (fitFinish_class (K := K) (C := C) ρ s Y w3), D', rfl, hA', hsub, fun _ => hall Y rfl⟩

/-- Fitting slices one after the other on data in another unit. -/
theorem fitSlices_unit (hS : K.SameCache C C' QP QI) (hc : K.Converts C C' σ φ Keeps Removes QP)
    (hσ : ∀ g k X, selectSample g k (σ X) = (selectSample g k X).map σ) (ρ : ℕ → Rng R) {A : ℕ → Prop} (X : Data R) :
    ∀ (ss : List ℕ) (w : World R P I W S) (D : List ℕ), (∀ s ∈ ss, UnitSlice Keeps Removes QP QI A w s) → (∀ a ∈ D, A a) →
    KeepsClass Keeps Removes QP QI w (fitSlices K ρ C X ss w).2 ∧
    ∃ D', fitSlices K ρ C' (σ X) ss (w.convert φ D) = ((fitSlices K ρ C X ss w).1, (fitSlices K ρ C X ss w).2.convert φ D') ∧
      (∀ a ∈ D', A a) ∧ (∀ a ∈ D, a ∈ D') ∧ ((fitSlices K ρ C X ss w).1 = .ok () → ∀ s ∈ ss, ∀ a ∈ (w.slice s).preps, A a → a ∈ D')
  | [], w, D, _, hD => ⟨KeepsClass.refl w, D, rfl, hD, fun _ h => h, fun _ s hs => by simp at hs⟩
  | s :: ss, w, D, hs, hD => by
    rw [fitSlices, fitSlices]
    obtain ⟨c1, D1, h1, h2, h3, h4⟩ := sliceFit_unit hS hc hσ ρ (hs s (List.mem_cons_self ..)) X hD
    rw [h1]
    rcases hf : sliceFit K ρ s C X w with ⟨e | u, w2⟩
    · rw [hf] at c1; exact ⟨c1, D1, rfl, h2, h3, fun h => by cases h⟩
    rw [hf] at c1 h4
    simp only at c1 h4 ⊢
    obtain ⟨c2, D2, g1, g2, g3, g4⟩ := fitSlices_unit hS hc hσ ρ X ss w2 D1 (fun t ht => (hs t (List.mem_cons_of_mem _ ht)).step c1) h2
    refine ⟨c1.trans c2, D2, g1, g2, fun a ha => g3 a (h3 a ha), fun hok t ht a ha hA => ?_⟩
    rcases List.mem_cons.1 ht with rfl | ht
    · exact g3 a (h4 trivial a ha hA)
    · exact g4 hok t ht a (by rw [(c1.slice t).1]; exact ha) hA

/-! ### Transforming -/

theorem transformPreps_appendU (n : ℕ) (w : World R P I W S) : ∀ (as bs : List ℕ) (X : Data R),
    (transformPreps K w n C (as ++ bs) X).1 = (transformPreps K w n C as X).1 >>= fun Y => (transformPreps K w n C bs Y).1
  | [], bs, X => rfl
  | a :: as, bs, X => by
    rw [List.cons_append, transformPreps, transformPreps]
    rcases K.prepTransform (w.prep a) C X with e | Y
    · rfl
    · exact transformPreps_appendU n w as bs Y

theorem transformPreps_lead (hc : K.Converts C C' σ φ Keeps Removes QP) (n : ℕ) (w : World R P I W S) (D : List ℕ) : ∀ (as : List ℕ) (X : Data R),
    (∀ a ∈ as, Keeps (w.prep a) ∧ a ∈ D) →
    (transformPreps K (w.convert φ D) n C' as (σ X)).1 = (transformPreps K w n C as X).1.map σ
  | [], X, _ => rfl
  | a :: as, X, hk => by
    rw [transformPreps, transformPreps]
    have ha := hk a (List.mem_cons_self ..)
    have e : (w.convert φ D).prep a = φ (w.prep a) := by unfold World.convert; simp [ha.2]
    rw [e, hc.keeps _ X ha.1]
    rcases ht : K.prepTransform (w.prep a) C X with e | Z
    · rfl
    · exact transformPreps_lead hc n w D as Z fun b hb => hk b (List.mem_cons_of_mem _ hb)

theorem transformPreps_rest (hS : K.SameCache C C' QP QI) (n : ℕ) (w : World R P I W S) (D : List ℕ) : ∀ (as : List ℕ) (X : Data R),
    (∀ a ∈ as, QP (w.prep a) ∧ a ∉ D) → (transformPreps K (w.convert φ D) n C' as X).1 = (transformPreps K w n C as X).1
  | [], X, _ => rfl
  | a :: as, X, hk => by
    rw [transformPreps, transformPreps]
    have ha := hk a (List.mem_cons_self ..)
    have e : (w.convert φ D).prep a = w.prep a := by unfold World.convert; simp [ha.2]
    rw [e, hS.prepTransform _ X ha.1]
    rcases K.prepTransform (w.prep a) C X with e | Z
    · rfl
    · exact transformPreps_rest hS n w D as Z fun b hb => hk b (List.mem_cons_of_mem _ hb)

theorem sliceTransform_unit (hS : K.SameCache C C' QP QI) (hc : K.Converts C C' σ φ Keeps Removes QP) {A : ℕ → Prop} {w : World R P I W S} {s : ℕ}
    (hs : UnitSlice Keeps Removes QP QI A w s) (X : Data R) {D : List ℕ} (hD : ∀ a ∈ D, A a) (hall : ∀ a ∈ (w.slice s).preps, A a → a ∈ D) (n : ℕ) :
    (sliceTransform K (w.convert φ D) n s C' (σ X)).1 = (sliceTransform K w n s C X).1 := by
  obtain ⟨pre, r, post, hpr, hpre, hr, hpost⟩ := hs.preps
  rw [sliceTransform, sliceTransform]
  have e2 : (w.convert φ D).slice = w.slice := rfl
  rw [e2]
  by_cases hf : (w.slice s).fitted = true
  · rw [if_pos hf, if_pos hf]
    have hmem : ∀ a ∈ pre ++ r :: post, A a → a ∈ D := by rw [← hpr]; exact hall
    -- the prepared data are the same
    have hY : (transformPreps K (w.convert φ D) n C' (w.slice s).preps (σ X)).1 = (transformPreps K w n C (w.slice s).preps X).1 := by
      rw [hpr, transformPreps_appendU, transformPreps_appendU,
        transformPreps_lead hc n w D pre X (fun a ha => ⟨(hpre a ha).1, hmem a (by simp [ha]) (hpre a ha).2⟩)]
      rcases h1 : (transformPreps K w n C pre X).1 with e | Y1
      · rfl
      simp only [Except.map, ok_bind]
      rw [transformPreps, transformPreps]
      have e : (w.convert φ D).prep r = φ (w.prep r) := by unfold World.convert; simp [hmem r (by simp) hr.2]
      rw [e, hc.removes _ _ hr.1]
      rcases ht : K.prepTransform (w.prep r) C Y1 with e | Z
      · rfl
      simp only
      exact transformPreps_rest hS n w D post Z fun a ha => ⟨(hpost a ha).1, fun hm => (hpost a ha).2 (hD a hm)⟩
    rcases ht : transformPreps K w n C (w.slice s).preps X with ⟨r1, tr1⟩
    rcases ht' : transformPreps K (w.convert φ D) n C' (w.slice s).preps (σ X) with ⟨r2, tr2⟩
    rw [ht, ht'] at hY
    simp only at hY
    subst hY
    rcases r2 with e | Y
    · rfl
    · show (transformSieve K (w.convert φ D) n s C' Y).1 = (transformSieve K w n s C Y).1
      rw [transformSieve_same hS n s Y (w.convert φ D) hs.iss]
      rfl
  · rw [if_neg hf, if_neg hf]

theorem slicesLoop_unit {w w' : World R P I W S} {X X' : Data R} (n : ℕ) (hN : ∀ s, sliceN K w' s = sliceN K w s) : ∀ (ss : List ℕ)
    (D : List (List V)) (k : ℤ), (∀ s ∈ ss, (sliceTransform K w' n s C' X').1 = (sliceTransform K w n s C X).1) →
    (slicesLoop K w' n C' X' ss D k).1 = (slicesLoop K w n C X ss D k).1
  | [], D, k, _ => rfl
  | s :: ss, D, k, h => by
    rw [slicesLoop, slicesLoop, hN]
    rcases sliceN K w s with e | N
    · rfl
    simp only
    have h1 := h s (List.mem_cons_self ..)
    rcases ht : sliceTransform K w n s C X with ⟨r1, tr1⟩
    rcases ht' : sliceTransform K w' n s C' X' with ⟨r2, tr2⟩
    rw [ht, ht'] at h1
    simp only at h1
    subst h1
    rcases r2 with e | B
    · rfl
    simp only
    rcases setCols D k (k + N) B with e | D'
    · rfl
    · exact slicesLoop_unit n hN ss D' _ fun t ht => h t (List.mem_cons_of_mem _ ht)

/-- Fitting and transforming with a fruit, in another unit. -/
theorem fruit_unit (hσl : ∀ X, (σ X).length = X.length) (hσ : ∀ g k X, selectSample g k (σ X) = (selectSample g k X).map σ) (ρ : ℕ → Rng R)
    {Ct Ct' : Data R} (hSt : K.SameCache Ct Ct' QP QI) (hct : K.Converts Ct Ct' σ φ Keeps Removes QP)
    (hS : K.SameCache C C' QP QI) (hc : K.Converts C C' σ φ Keeps Removes QP) {A : ℕ → Prop} {w : World R P I W S} {f : ℕ}
    (hs : ∀ s ∈ (w.fruit f).slices, UnitSlice Keeps Removes QP QI A w s) (Xt : Data R) :
    (fruitFit K ρ f Ct' (σ Xt) w).1 = (fruitFit K ρ f Ct Xt w).1 ∧ ((fruitFit K ρ f Ct Xt w).1 = .ok () → ∀ X n,
      (fruitTransform K (fruitFit K ρ f Ct' (σ Xt) w).2 n f C' (σ X)).1 = (fruitTransform K (fruitFit K ρ f Ct Xt w).2 n f C X).1) := by
  obtain ⟨c1, D, h1, h2, _, h4⟩ := fitSlices_unit hSt hct hσ ρ Xt (w.fruit f).slices w [] hs (by simp)
  have e0 : w.convert φ [] = w := by unfold World.convert; simp
  rw [e0] at h1
  unfold fruitFit
  rw [h1]
  rcases hf : fitSlices K ρ Ct Xt (w.fruit f).slices w with ⟨e | u, w1⟩
  · exact ⟨rfl, fun h => by cases h⟩
  rw [hf] at c1 h4
  simp only at c1 h4 ⊢
  refine ⟨trivial, fun _ X n => ?_⟩
  have e1 : (w1.convert φ D).setFruit f { (w1.convert φ D).fruit f with fitted := true } =
      (w1.setFruit f { w1.fruit f with fitted := true }).convert φ D := rfl
  rw [e1]
  generalize hw2 : w1.setFruit f { w1.fruit f with fitted := true } = w2
  have hsl : (w2.fruit f).slices = (w.fruit f).slices := by
    rw [← hw2]; simp [World.setFruit, c1.fruit]
  rw [fruitTransform, fruitTransform]
  have e2 : (w2.convert φ D).fruit = w2.fruit := rfl
  have e3 : fruitN K (w2.convert φ D) f = fruitN K w2 f := rfl
  rw [e2, e3, hσl]
  by_cases hft : (w2.fruit f).fitted = true
  · rw [if_pos hft, if_pos hft]
    rcases fruitN K w2 f >>= zerosE K X.length with e | M
    · rfl
    simp only
    have hloop := slicesLoop_unit (K := K) (C := C) (C' := C') (w := w2) (w' := w2.convert φ D) (X := X) (X' := σ X) n (fun s => rfl) (w2.fruit f).slices M 0
      (fun s hsm => by
        rw [hsl] at hsm
        have hu : UnitSlice Keeps Removes QP QI A w1 s := (hs s hsm).step c1
        have hu2 : UnitSlice Keeps Removes QP QI A w2 s := by
          rw [← hw2]; exact ⟨hu.preps, hu.iss⟩
        refine sliceTransform_unit hS hc hu2 X h2 (fun a ha hA => ?_) n
        refine h4 trivial s hsm a ?_ hA
        rw [← (c1.slice s).1]
        rw [← hw2] at ha
        exact ha)
    rcases ht : slicesLoop K w2 n C X (w2.fruit f).slices M 0 with ⟨r1, tr1⟩
    rcases ht' : slicesLoop K (w2.convert φ D) n C' (σ X) (w2.fruit f).slices M 0 with ⟨r2, tr2⟩
    rw [ht, ht'] at hloop
    simp only at hloop
    subst hloop
    rcases r2 <;> rfl
  · rw [if_neg hft, if_neg hft]

end generic

end Fruits
