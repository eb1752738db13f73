import Verif.Props.Order1

/-! # C167: the order of the training series, part 2: fruits of any seeds -/

namespace Fruits
set_option linter.unusedSectionVars false

variable {R P I W S V : Type} [Field R] [LinearOrder R] [IsStrictOrderedRing R] [FloorRing R]

/-- Seeds that learn the same from the same series in another order: `QP`, `QI`, `QS` are sets of preparateurs, ISS objects and sieves that
`fit` and `copy` do not lead out of. -/
structure Sem.Unordered (K : Sem R P I W S V) (QP : P → Prop) (QI : I → W → Prop) (QS : S → Prop) : Prop where
  prepFit : ∀ g p C C' X X' q q', g.Valid → QP p → Uni X → X.Perm X' → K.prepFit g p C X = .ok q → K.prepFit g p C' X' = .ok q' → q = q'
  prepKeep : ∀ g p C X q, QP p → K.prepFit g p C X = .ok q → QP q
  prepLocal : ∀ p, QP p → PrepLocal K p
  prepCache : ∀ p C C' X, QP p → K.prepTransform p C X = K.prepTransform p C' X
  issFit : ∀ g i ws C C' X X' j j', g.Valid → QI i ws → Uni X → X.Perm X' → K.issFit g i ws C X = .ok j → K.issFit g i ws C' X' = .ok j' → j = j'
  issKeep : ∀ g i ws C X j, QI i ws → K.issFit g i ws C X = .ok j → ∀ us, QI i us → QI j us
  issLocal : ∀ i ws, QI i ws → GenLocal fun C X => K.issGen i ws C X
  issCache : ∀ i ws C C' X, QI i ws → K.issGen i ws C X = K.issGen i ws C' X
  sieveFit : ∀ g s C C' X X' t t', g.Valid → QS s → X.Perm X' → K.sieveFit g s C X = .ok t → K.sieveFit g s C' X' = .ok t' → t = t'
  sieveCopy : ∀ s t, QS s → K.sieveCopy s = .ok t → QS t

variable {K : Sem R P I W S V} {QP : P → Prop} {QI : I → W → Prop} {QS : S → Prop}

/-- The seeds of the slice are in the sets, and it is fitted to all the series. -/
structure UnorderedSlice (QP : P → Prop) (QI : I → W → Prop) (QS : S → Prop) (w : World R P I W S) (s : ℕ) : Prop where
  preps : ∀ a ∈ (w.slice s).preps, QP (w.prep a)
  iss : ∀ a ∈ (w.slice s).iss, QI (w.iss a).1 (w.words (w.iss a).2)
  sieves : ∀ a ∈ (w.slice s).sieves, QS (w.sieve a)
  sample : (w.slice s).sample = .float 1

/-- What a step of `fit` may change. -/
structure KeepsSets (QP : P → Prop) (QI : I → W → Prop) (w w' : World R P I W S) : Prop where
  prep : ∀ a, QP (w.prep a) → QP (w'.prep a)
  iss : ∀ a, QI (w.iss a).1 (w.words (w.iss a).2) → QI (w'.iss a).1 (w'.words (w'.iss a).2)
  sieve : w'.sieve = w.sieve
  slice : ∀ s, (w'.slice s).preps = (w.slice s).preps ∧ (w'.slice s).iss = (w.slice s).iss ∧ (w'.slice s).sieves = (w.slice s).sieves ∧
    (w'.slice s).sample = (w.slice s).sample
  words : w'.words = w.words
  fruit : ∀ f, (w'.fruit f).slices = (w.fruit f).slices

theorem KeepsSets.refl (w : World R P I W S) : KeepsSets QP QI w w := ⟨fun _ h => h, fun _ h => h, rfl, fun _ => ⟨rfl, rfl, rfl, rfl⟩, rfl, fun _ => rfl⟩

theorem KeepsSets.trans {w w₁ w₂ : World R P I W S} (h : KeepsSets QP QI w w₁) (h' : KeepsSets QP QI w₁ w₂) : KeepsSets QP QI w w₂ :=
  ⟨fun a e => h'.prep a (h.prep a e), fun a e => h'.iss a (h.iss a e), h'.sieve.trans h.sieve, fun s => by
    obtain ⟨a, b, c, d⟩ := h.slice s
    obtain ⟨a', b', c', d'⟩ := h'.slice s
    exact ⟨a'.trans a, b'.trans b, c'.trans c, d'.trans d⟩, h'.words.trans h.words, fun f => (h'.fruit f).trans (h.fruit f)⟩

theorem UnorderedSlice.step {w w' : World R P I W S} {s : ℕ} (h : UnorderedSlice QP QI QS w s) (hk : KeepsSets QP QI w w') :
    UnorderedSlice QP QI QS w' s where
  preps a ha := hk.prep a (h.preps a (by rw [← (hk.slice s).1]; exact ha))
  iss a ha := hk.iss a (h.iss a (by rw [← (hk.slice s).2.1]; exact ha))
  sieves a ha := by rw [hk.sieve]; exact h.sieves a (by rw [← (hk.slice s).2.2.1]; exact ha)
  sample := by rw [(hk.slice s).2.2.2]; exact h.sample

theorem KeepsSets.set (hK : K.Unordered QP QI QS) {w : World R P I W S} {a : ℕ} {g : Rng R} {C X : Data R} {q : P}
    (h : K.prepFit g (w.prep a) C X = .ok q) : KeepsSets QP QI w (w.tick.setPrep a q) := by
  refine ⟨fun b hb => ?_, fun _ h => h, rfl, fun _ => ⟨rfl, rfl, rfl, rfl⟩, rfl, fun _ => rfl⟩
  show QP (Function.update w.prep a q b)
  by_cases e : b = a
  · subst e; rw [Function.update_self]; exact hK.prepKeep _ _ _ _ _ hb h
  · rw [Function.update_of_ne e]; exact hb

theorem fitPreps_perm (hK : K.Unordered QP QI QS) {ρ : ℕ → Rng R} (hρ : ∀ k, (ρ k).Valid) (C C' : Data R) :
    ∀ (as : List ℕ) (X X' Y Y' : Data R) (w w₁ w₁' : World R P I W S), (∀ a ∈ as, QP (w.prep a)) → Uni X → X.Perm X' →
      fitPreps K ρ C as X w = (.ok Y, w₁) → fitPreps K ρ C' as X' w = (.ok Y', w₁') →
      w₁' = w₁ ∧ Uni Y ∧ Y.Perm Y' ∧ KeepsSets QP QI w w₁
  | [], X, X', Y, Y', w, w₁, w₁', _, hX, h, e, e' => by
    cases e; cases e'
    exact ⟨rfl, hX, h, KeepsSets.refl w⟩
  | a :: as, X, X', Y, Y', w, w₁, w₁', hq, hX, h, e, e' => by
    rw [fitPreps] at e e'
    have ha := hq a (List.mem_cons_self ..)
    rcases h1 : K.prepFit (ρ w.rnd) (w.prep a) C X with _ | p
    · rw [h1] at e; cases e
    rcases h2 : K.prepFit (ρ w.rnd) (w.prep a) C' X' with _ | p'
    · rw [h2] at e'; cases e'
    have := hK.prepFit _ _ _ _ _ _ _ _ (hρ _) ha hX h h1 h2
    subst this
    rw [h1] at e
    rw [h2] at e'
    have hp := hK.prepKeep _ _ _ _ _ ha h1
    have hX' := (hX.perm h).1
    simp only at e e'
    rcases h3 : K.prepTransform p C X with _ | Z
    · rw [h3] at e; cases e
    rcases h4 : K.prepTransform p C' X' with _ | Z'
    · rw [h4] at e'; cases e'
    rw [h3] at e
    rw [h4] at e'
    obtain ⟨u1, u2, u3⟩ := hK.prepLocal p hp X X Z hX hX rfl ((hK.prepCache p _ _ _ hp).trans h3)
    obtain ⟨v1, v2, v3⟩ := hK.prepLocal p hp X' X' Z' hX' hX' rfl ((hK.prepCache p _ _ _ hp).trans h4)
    have hZ : Z.Perm Z' := perm_of_local (F := fun x => K.prepTransform p x x) u2 u3 v2 v3 h
    have hset : KeepsSets QP QI w (w.tick.setPrep a p) := KeepsSets.set hK h1
    obtain ⟨r1, r2, r3, r4⟩ := fitPreps_perm hK hρ C C' as Z Z' Y Y' _ w₁ w₁'
      (fun b hb => hset.prep b (hq b (List.mem_cons_of_mem _ hb))) u1 hZ e e'
    exact ⟨r1, r2, r3, hset.trans r4⟩

theorem fitIss_perm (hK : K.Unordered QP QI QS) {ρ : ℕ → Rng R} (hρ : ∀ k, (ρ k).Valid) (C C' : Data R) {X X' : Data R} (hX : Uni X)
    (h : X.Perm X') : ∀ (as : List ℕ) (w w₁ w₁' : World R P I W S), (∀ a ∈ as, QI (w.iss a).1 (w.words (w.iss a).2)) →
      fitIss K ρ C X as w = (.ok (), w₁) → fitIss K ρ C' X' as w = (.ok (), w₁') → w₁' = w₁ ∧ KeepsSets QP QI w w₁
  | [], w, w₁, w₁', _, e, e' => by
    cases e; cases e'
    exact ⟨rfl, KeepsSets.refl w⟩
  | a :: as, w, w₁, w₁', hq, e, e' => by
    rw [fitIss] at e e'
    have ha := hq a (List.mem_cons_self ..)
    by_cases hr : K.issRequires (w.issAt a).1 = true
    · rw [if_pos hr] at e e'
      rcases h1 : K.issFit (ρ w.rnd) (w.issAt a).1 (w.issAt a).2 C X with _ | i
      · rw [h1] at e; cases e
      rcases h2 : K.issFit (ρ w.rnd) (w.issAt a).1 (w.issAt a).2 C' X' with _ | i'
      · rw [h2] at e'; cases e'
      have := hK.issFit _ _ _ _ _ _ _ _ _ (hρ _) ha hX h h1 h2
      subst this
      rw [h1] at e
      rw [h2] at e'
      have hset : KeepsSets QP QI w (w.tick.setIss a i) := by
        refine ⟨fun _ h => h, fun b hb => ?_, rfl, fun _ => ⟨rfl, rfl, rfl, rfl⟩, rfl, fun _ => rfl⟩
        show QI (Function.update w.iss a (i, (w.iss a).2) b).1 (w.words (Function.update w.iss a (i, (w.iss a).2) b).2)
        by_cases hba : b = a
        · subst hba; rw [Function.update_self]; exact hK.issKeep _ _ _ _ _ _ ha h1 _ hb
        · rw [Function.update_of_ne hba]; exact hb
      obtain ⟨r1, r2⟩ := fitIss_perm hK hρ C C' hX h as _ w₁ w₁' (fun b hb => hset.iss b (hq b (List.mem_cons_of_mem _ hb))) e e'
      exact ⟨r1, hset.trans r2⟩
    · rw [if_neg hr] at e e'
      exact fitIss_perm hK hρ C C' hX h as w w₁ w₁' (fun b hb => hq b (List.mem_cons_of_mem _ hb)) e e'

theorem iterateIss_cache (hK : K.Unordered QP QI QS) (C C' : Data R) : ∀ (is : List (I × W)) (X : Data R), (∀ i ∈ is, QI i.1 i.2) →
    iterateIss K C is X = iterateIss K C' is X
  | [], _, _ => rfl
  | i :: is, X, h => by
    rw [iterateIss, iterateIss, hK.issCache i.1 i.2 C C' X (h i (List.mem_cons_self ..))]
    congr 1
    funext it
    exact iterateIss_cache hK C C' is _ fun j hj => h j (List.mem_cons_of_mem _ hj)

theorem gen_perm {F : Data R → Data R → Yields (List (List R))} (hF : GenLocal F) {X X' : Data R} (hX : Uni X) (h : X.Perm X')
    (e : (F X X).2 = none) (e' : (F X' X').2 = none) : List.Forall₂ List.Perm (F X X).1 (F X' X').1 := by
  rcases X with _ | ⟨x, X⟩
  · rw [h.nil_eq]; exact List.forall₂_same.2 fun _ _ => List.Perm.refl _
  have hX' := (hX.perm h).1
  obtain ⟨u1, u2⟩ := hF _ _ hX hX rfl e
  obtain ⟨v1, v2⟩ := hF _ _ hX' hX' rfl e'
  set Y := (F (x :: X) (x :: X)).1
  set Y' := (F X' X').1
  have hx : x ∈ X' := h.mem_iff.1 (List.mem_cons_self ..)
  obtain ⟨i, hi, hxi⟩ := List.getElem_of_mem hx
  have hlen : Y.length = Y'.length := by
    have a := u2 0 (by simp)
    have b := v2 i hi
    rw [getD_getElem hi, hxi] at b
    simp only [List.getD_cons_zero] at a
    rw [a] at b
    have := congrArg (fun p : Yields (List (List R)) => p.1.length) b
    simpa [oneSeries] using this
  have key : ∀ (X : Data R) (Y : List (List (List R))), (∀ it ∈ Y, ItemOK X.length it) →
      (∀ i < X.length, F [X.getD i []] [X.getD i []] = (oneSeries i Y, none)) → ∀ k, (hk : k < Y.length) →
      Y[k] = X.map fun s => ((F [s] [s]).1.getD k []).getD 0 [] := by
    intro X Y h1 h2 k hk
    have hl := (h1 _ (List.getElem_mem hk)).1
    refine List.ext_getElem (by simpa using hl) fun i ha hb => ?_
    have hi : i < X.length := by omega
    have := h2 i hi
    rw [getD_getElem hi] at this
    rw [List.getElem_map, this]
    simp only [oneSeries]
    rw [getD_getElem (X := Y.map fun it => [it.getD i []]) (by simpa using hk), List.getElem_map, List.getD_cons_zero, getD_getElem ha]
  rw [List.forall₂_iff_get]
  refine ⟨hlen, fun k h1 h2 => ?_⟩
  rw [List.get_eq_getElem, List.get_eq_getElem, key _ Y u1 u2 k h1, key X' Y' v1 v2 k h2]
  exact h.map _

theorem fitSieves_perm (hK : K.Unordered QP QI QS) {ρ : ℕ → Rng R} (hρ : ∀ k, (ρ k).Valid) (C C' : Data R) {it it' : List (List R)}
    (h : it.Perm it') : ∀ (ss : List S) (r : ℕ) (ts ts' : List S) (r₁ r₁' : ℕ), (∀ s ∈ ss, QS s) →
      fitSieves K ρ C it ss r = (.ok ts, r₁) → fitSieves K ρ C' it' ss r = (.ok ts', r₁') → ts' = ts ∧ r₁' = r₁
  | [], r, ts, ts', r₁, r₁', _, e, e' => by cases e; cases e'; exact ⟨rfl, rfl⟩
  | s :: ss, r, ts, ts', r₁, r₁', hq, e, e' => by
    rw [fitSieves] at e e'
    rcases h1 : K.sieveFit (ρ r) s C it with _ | t
    · rw [h1] at e; cases e
    rcases h2 : K.sieveFit (ρ r) s C' it' with _ | t'
    · rw [h2] at e'; cases e'
    have := hK.sieveFit _ _ _ _ _ _ _ _ (hρ _) (hq s (List.mem_cons_self ..)) h h1 h2
    subst this
    rw [h1] at e
    rw [h2] at e'
    simp only at e e'
    rcases h3 : fitSieves K ρ C it ss (r + 1) with ⟨_ | us, k⟩
    · rw [h3] at e; cases e
    rcases h4 : fitSieves K ρ C' it' ss (r + 1) with ⟨_ | us', k'⟩
    · rw [h4] at e'; cases e'
    obtain ⟨a, b⟩ := fitSieves_perm hK hρ C C' h ss (r + 1) us us' k k' (fun s hs => hq s (List.mem_cons_of_mem _ hs)) h3 h4
    subst a; subst b
    rw [h3] at e
    rw [h4] at e'
    cases e; cases e'
    exact ⟨rfl, rfl⟩

theorem mapM_out_mem {α β : Type} {f : α → Except Err β} {xs : List α} {ys : List β} (h : xs.mapM f = .ok ys) : ∀ y ∈ ys, ∃ x ∈ xs, f x = .ok y := by
  rw [mapM_ok_iff] at h
  induction h with
  | nil => intro y hy; cases hy
  | cons h _ ih =>
    intro y hy
    rcases List.mem_cons.1 hy with rfl | hy
    · exact ⟨_, List.mem_cons_self .., h⟩
    · obtain ⟨x, hx, e⟩ := ih y hy
      exact ⟨x, List.mem_cons_of_mem _ hx, e⟩

theorem fitItems_perm (hK : K.Unordered QP QI QS) {ρ : ℕ → Rng R} (hρ : ∀ k, (ρ k).Valid) (C C' : Data R) (sv : List S) (hs : ∀ s ∈ sv, QS s) :
    ∀ (its its' : List (List (List R))) (r : ℕ) (rows rows' : List (List S)) (r₁ r₁' : ℕ), List.Forall₂ List.Perm its its' →
      fitItems K ρ C sv its none r = ((rows, none), r₁) → fitItems K ρ C' sv its' none r = ((rows', none), r₁') → rows' = rows ∧ r₁' = r₁
  | [], [], r, rows, rows', r₁, r₁', _, e, e' => by cases e; cases e'; exact ⟨rfl, rfl⟩
  | it :: its, it' :: its', r, rows, rows', r₁, r₁', h, e, e' => by
    rw [fitItems] at e e'
    cases h with
    | cons hit hits =>
    rcases hc : sv.mapM K.sieveCopy with _ | cs
    · rw [hc] at e; cases e
    rw [hc] at e e'
    have hcs : ∀ s ∈ cs, QS s := by
      intro t ht
      obtain ⟨s, hsm, hst⟩ := mapM_out_mem hc t ht
      exact hK.sieveCopy s t (hs s hsm) hst
    simp only at e e'
    rcases h3 : fitSieves K ρ C it cs r with ⟨_ | us, k⟩
    · rw [h3] at e; cases e
    rcases h4 : fitSieves K ρ C' it' cs r with ⟨_ | us', k'⟩
    · rw [h4] at e'; cases e'
    obtain ⟨a, b⟩ := fitSieves_perm hK hρ C C' hit cs r us us' k k' hcs h3 h4
    subst a; subst b
    rw [h3] at e
    rw [h4] at e'
    simp only at e e'
    rcases h5 : fitItems K ρ C sv its none k' with ⟨⟨ro, _ | er⟩, k₁⟩
    · rcases h6 : fitItems K ρ C' sv its' none k' with ⟨⟨ro', _ | er⟩, k₁'⟩
      · obtain ⟨a, b⟩ := fitItems_perm hK hρ C C' sv hs its its' k' ro ro' k₁ k₁' hits h5 h6
        subst a; subst b
        rw [h5] at e
        rw [h6] at e'
        cases e; cases e'
        exact ⟨rfl, rfl⟩
      · rw [h6] at e'; cases e'
    · rw [h5] at e; cases e

theorem fitItems_none (K : Sem R P I W S V) (ρ : ℕ → Rng R) (C : Data R) (sv : List S) : ∀ (its : List (List (List R))) (e : Option Err) (r : ℕ),
    (fitItems K ρ C sv its e r).1.2 = none → e = none
  | [], e, r, h => h
  | it :: its, e, r, h => by
    rw [fitItems] at h
    rcases hc : sv.mapM K.sieveCopy with _ | cs
    · rw [hc] at h; cases h
    rw [hc] at h
    simp only at h
    rcases h3 : fitSieves K ρ C it cs r with ⟨_ | us, k⟩
    · rw [h3] at h; cases h
    rw [h3] at h
    exact fitItems_none K ρ C sv its e k h

theorem fitFinish_perm (hK : K.Unordered QP QI QS) {ρ : ℕ → Rng R} (hρ : ∀ k, (ρ k).Valid) (C C' : Data R) {X X' : Data R} (hX : Uni X)
    (h : X.Perm X') (s : ℕ) (w w₁ w₁' : World R P I W S) (hi : ∀ a ∈ (w.slice s).iss, QI (w.iss a).1 (w.words (w.iss a).2))
    (hs : ∀ a ∈ (w.slice s).sieves, QS (w.sieve a)) (e : fitFinish K ρ s C X w = (.ok (), w₁)) (e' : fitFinish K ρ s C' X' w = (.ok (), w₁')) :
    w₁' = w₁ ∧ KeepsSets QP QI w w₁ := by
  have keeps : ∀ (rows : List (List S)) (b : Bool) (r : ℕ),
      KeepsSets QP QI w { w.setSlice s { w.slice s with ext := rows, fitted := b } with rnd := r } := by
    intro rows b r
    refine ⟨fun _ h => h, fun _ h => h, rfl, fun t => ?_, rfl, fun _ => rfl⟩
    by_cases ht : t = s
    · subst ht; simp [World.setSlice]
    · simp [World.setSlice, Function.update_of_ne ht]
  have hX' := (hX.perm h).1
  have hmem : ∀ i ∈ (w.slice s).iss.map w.issAt, QI i.1 i.2 := by
    intro i hmem
    obtain ⟨a, ha, rfl⟩ := List.mem_map.1 hmem
    exact hi a ha
  rw [fitFinish] at e e'
  by_cases hr : anyRequires K w s = true
  · rw [if_pos hr] at e e'
    rw [iterateIss_cache hK C X _ X hmem] at e
    rw [iterateIss_cache hK C' X' _ X' hmem] at e'
    rcases h5 : fitItems K ρ C ((w.slice s).sieves.map w.sieve) (iterateIss K X ((w.slice s).iss.map w.issAt) X).1
        (iterateIss K X ((w.slice s).iss.map w.issAt) X).2 w.rnd with ⟨⟨ro, _ | er⟩, k₁⟩
    · rcases h6 : fitItems K ρ C' ((w.slice s).sieves.map w.sieve) (iterateIss K X' ((w.slice s).iss.map w.issAt) X').1
          (iterateIss K X' ((w.slice s).iss.map w.issAt) X').2 w.rnd with ⟨⟨ro', _ | er⟩, k₁'⟩
      · have n1 : (iterateIss K X ((w.slice s).iss.map w.issAt) X).2 = none := fitItems_none K ρ C _ _ _ _ (by rw [h5])
        have n2 : (iterateIss K X' ((w.slice s).iss.map w.issAt) X').2 = none := fitItems_none K ρ C' _ _ _ _ (by rw [h6])
        have hg := gen_perm (iterateIss_local ((w.slice s).iss.map w.issAt) fun p hp => hK.issLocal p.1 p.2 (hmem p hp)) hX h n1 n2
        have h5' := h5
        have h6' := h6
        rw [n1] at h5'
        rw [n2] at h6'
        obtain ⟨a, b⟩ := fitItems_perm hK hρ C C' _ (by
          intro t ht
          obtain ⟨a, ha, rfl⟩ := List.mem_map.1 ht
          exact hs a ha) _ _ _ _ _ _ _ hg h5' h6'
        subst a; subst b
        rw [h5] at e
        rw [h6] at e'
        cases e; cases e'
        exact ⟨rfl, keeps _ true _⟩
      · rw [h6] at e'; cases e'
    · rw [h5] at e; cases e
  · rw [if_neg hr] at e e'
    cases e; cases e'
    exact ⟨rfl, keeps (w.slice s).ext true w.rnd⟩

theorem selectSample_all {g : Rng R} (hg : g.Valid) {X D : Data R} (hm : X ≠ []) (h : selectSample g (.float 1) X = .ok D) : D.Perm X := by
  have hl : 1 ≤ X.length := by
    rcases X with _ | ⟨x, X⟩
    · exact absurd rfl hm
    · simp
  have e : (max (sampleCount (R := R) (.float 1) X.length) 1).toNat = X.length := by
    have : sampleCount (R := R) (.float 1) X.length = X.length := by
      unfold sampleCount pyInt
      simp
    rw [this]
    omega
  unfold selectSample at h
  simp only [chooseSample] at h
  rw [e, if_neg (lt_irrefl _)] at h
  cases h
  exact pick_all hg 0 X []

/-- Fitting one slice to all the series. -/
theorem sliceFit_perm (hK : K.Unordered QP QI QS) {ρ : ℕ → Rng R} (hρ : ∀ k, (ρ k).Valid) (C C' : Data R) {X X' : Data R} (hX : Uni X)
    (hm : X ≠ []) (h : X.Perm X') (s : ℕ) (w w₁ w₁' : World R P I W S) (hs : UnorderedSlice QP QI QS w s)
    (e : sliceFit K ρ s C X w = (.ok (), w₁)) (e' : sliceFit K ρ s C' X' w = (.ok (), w₁')) :
    w₁' = w₁ ∧ KeepsSets QP QI w w₁ := by
  have hm' : X' ≠ [] := fun e => hm (by rw [e] at h; exact h.eq_nil)
  rw [sliceFit] at e e'
  by_cases h1 : (w.slice s).iss = []
  · rw [if_pos h1] at e; cases e
  rw [if_neg h1] at e e'
  by_cases h2 : (w.slice s).sieves = []
  · rw [if_pos h2] at e; cases e
  rw [if_neg h2] at e e'
  rw [hs.sample] at e e'
  rcases s1 : selectSample (ρ w.rnd) (.float 1) X with _ | D
  · rw [s1] at e; cases e
  rcases s2 : selectSample (ρ w.rnd) (.float 1) X' with _ | D'
  · rw [s2] at e'; cases e'
  rw [s1] at e
  rw [s2] at e'
  simp only at e e'
  have d1 := selectSample_all (hρ _) hm s1
  have d2 := selectSample_all (hρ _) hm' s2
  have hD : Uni D := (hX.perm d1.symm).1
  rcases p1 : fitPreps K ρ C (w.slice s).preps D w.tick with ⟨_ | Y, v⟩
  · rw [p1] at e; cases e
  rcases p2 : fitPreps K ρ C' (w.slice s).preps D' w.tick with ⟨_ | Y', v'⟩
  · rw [p2] at e'; cases e'
  obtain ⟨a1, a2, a3, a4⟩ := fitPreps_perm hK hρ C C' _ D D' Y Y' w.tick v v' hs.preps hD (d1.trans (h.trans d2.symm)) p1 p2
  subst a1
  have k0 : KeepsSets QP QI w v' := KeepsSets.trans (w₁ := w.tick) ⟨fun _ h => h, fun _ h => h, rfl, fun _ => ⟨rfl, rfl, rfl, rfl⟩, rfl, fun _ => rfl⟩ a4
  rw [p1] at e
  rw [p2] at e'
  simp only at e e'
  rcases q1 : fitIss K ρ C Y (w.slice s).iss v' with ⟨_ | ⟨⟩, u⟩
  · rw [q1] at e; cases e
  rcases q2 : fitIss K ρ C' Y' (w.slice s).iss v' with ⟨_ | ⟨⟩, u'⟩
  · rw [q2] at e'; cases e'
  obtain ⟨b1, b2⟩ := fitIss_perm (QP := QP) hK hρ C C' a2 a3 (w.slice s).iss v' u u' (fun a ha => k0.iss a (hs.iss a ha)) q1 q2
  subst b1
  rw [q1] at e
  rw [q2] at e'
  simp only at e e'
  have k1 := k0.trans b2
  have hs1 := hs.step k1
  obtain ⟨c1, c2⟩ := fitFinish_perm (QP := QP) hK hρ C C' a2 a3 s u' w₁ w₁' hs1.iss hs1.sieves e e'
  exact ⟨c1, k1.trans c2⟩

theorem fitSlices_perm (hK : K.Unordered QP QI QS) {ρ : ℕ → Rng R} (hρ : ∀ k, (ρ k).Valid) (C C' : Data R) {X X' : Data R} (hX : Uni X)
    (hm : X ≠ []) (h : X.Perm X') : ∀ (ss : List ℕ) (w w₁ w₁' : World R P I W S), (∀ s ∈ ss, UnorderedSlice QP QI QS w s) →
    fitSlices K ρ C X ss w = (.ok (), w₁) → fitSlices K ρ C' X' ss w = (.ok (), w₁') → w₁' = w₁ ∧ KeepsSets QP QI w w₁
  | [], w, w₁, w₁', _, e, e' => by cases e; cases e'; exact ⟨rfl, KeepsSets.refl w⟩
  | s :: ss, w, w₁, w₁', hs, e, e' => by
    rw [fitSlices] at e e'
    rcases q1 : sliceFit K ρ s C X w with ⟨_ | ⟨⟩, u⟩
    · rw [q1] at e; cases e
    rcases q2 : sliceFit K ρ s C' X' w with ⟨_ | ⟨⟩, u'⟩
    · rw [q2] at e'; cases e'
    obtain ⟨a, b⟩ := sliceFit_perm hK hρ C C' hX hm h s w u u' (hs s (List.mem_cons_self ..)) q1 q2
    subst a
    rw [q1] at e
    rw [q2] at e'
    obtain ⟨c, d⟩ := fitSlices_perm hK hρ C C' hX hm h ss u' w₁ w₁' (fun t ht => (hs t (List.mem_cons_of_mem _ ht)).step b) e e'
    exact ⟨c, b.trans d⟩

/-- **C167**, for any seeds that learn the same from the same series in another order. -/
theorem C167_generic (hK : K.Unordered QP QI QS) {ρ : ℕ → Rng R} (hρ : ∀ k, (ρ k).Valid) {X X' : Data R} (hX : Uni X)
    (hm : X ≠ []) (h : X.Perm X') (f : ℕ) (w w₁ w₁' : World R P I W S) (hs : ∀ s ∈ (w.fruit f).slices, UnorderedSlice QP QI QS w s)
    (e : fruitFit K ρ f X X w = (.ok (), w₁)) (e' : fruitFit K ρ f X' X' w = (.ok (), w₁')) : w₁' = w₁ ∧ KeepsSets QP QI w w₁ := by
  rw [fruitFit] at e e'
  rcases q1 : fitSlices K ρ X X (w.fruit f).slices w with ⟨_ | ⟨⟩, u⟩
  · rw [q1] at e; cases e
  rcases q2 : fitSlices K ρ X' X' (w.fruit f).slices w with ⟨_ | ⟨⟩, u'⟩
  · rw [q2] at e'; cases e'
  obtain ⟨a, b⟩ := fitSlices_perm hK hρ X X' hX hm h _ w u u' hs q1 q2
  subst a
  rw [q1] at e
  rw [q2] at e'
  cases e; cases e'
  refine ⟨rfl, b.trans ⟨fun _ h => h, fun _ h => h, rfl, fun _ => ⟨rfl, rfl, rfl, rfl⟩, rfl, fun g => ?_⟩⟩
  by_cases hg : g = f
  · subst hg; simp [World.setFruit]
  · simp [World.setFruit, Function.update_of_ne hg]

end Fruits
