import Verif.Props.Series2
import Verif.Props.Fruit14

/-! # C167: the order of the training series, part 1: the seeds -/

namespace Fruits
set_option linter.unusedSectionVars false

variable {R : Type} [Field R] [LinearOrder R] [IsStrictOrderedRing R] [FloorRing R]

/-! ### Lists -/

theorem Uni.perm {X X' : Data R} (h : X.Perm X') (hX : Uni X) : Uni X' ∧ shape1 X' = shape1 X ∧ shape2 X' = shape2 X := by
  rcases X' with _ | ⟨x, X'⟩
  · have : X = [] := h.eq_nil
    subst this
    exact ⟨hX, rfl, rfl⟩
  · have hx : x ∈ X := h.mem_iff.2 (List.mem_cons_self ..)
    obtain ⟨h1, h2⟩ := hX.2 x hx
    have e1 : shape1 (x :: X') = shape1 X := h1
    have e2 : shape2 (x :: X') = shape2 X := by
      rcases x with _ | ⟨r, x⟩
      · have h0 : (X.getD 0 []).length = 0 := h1.symm
        show 0 = ((X.getD 0 []).getD 0 []).length
        rw [List.length_eq_zero_iff.1 h0]
        rfl
      · exact h2 r (List.mem_cons_self ..)
    refine ⟨⟨rfl, fun s hs => ?_⟩, e1, e2⟩
    rw [e1, e2]
    exact hX.2 s (h.mem_iff.2 hs)

theorem entries_perm {X X' : Data R} (h : X.Perm X') : (entries X).Perm (entries X') := h.flatten.flatten

theorem mean_perm {x y : List R} (h : x.Perm y) : mean x = mean y := by
  unfold mean
  rw [h.sum_eq, h.length_eq]

theorem variance_perm {x y : List R} (h : x.Perm y) : variance x = variance y := by
  unfold variance
  rw [mean_perm h]
  exact mean_perm (h.map _)

theorem sort_perm {x y : List R} (h : x.Perm y) : x.insertionSort (· ≤ ·) = y.insertionSort (· ≤ ·) :=
  List.Perm.eq_of_pairwise' (List.pairwise_insertionSort (· ≤ ·) x) (List.pairwise_insertionSort (· ≤ ·) y)
    ((List.perm_insertionSort _ x).trans (h.trans (List.perm_insertionSort _ y).symm))

theorem quantile_perm {x y : List R} (h : x.Perm y) (q : R) : quantile x q = quantile y q := by
  unfold quantile
  rw [sort_perm h]

/-- A function that treats the elements one by one respects the order in which they are given. -/
theorem perm_of_local {α β : Type} {F : List α → Except Err (List β)} {a : α} {b : β} {X X' : List α} {Z Z' : List β}
    (hl : Z.length = X.length) (h : ∀ i < X.length, F [X.getD i a] = .ok [Z.getD i b])
    (hl' : Z'.length = X'.length) (h' : ∀ i < X'.length, F [X'.getD i a] = .ok [Z'.getD i b]) (hp : X.Perm X') : Z.Perm Z' := by
  have key : ∀ (X : List α) (Z : List β), Z.length = X.length → (∀ i < X.length, F [X.getD i a] = .ok [Z.getD i b]) →
      Z = X.map fun x => match F [x] with | .ok (z :: _) => z | _ => b := by
    intro X Z hl h
    refine List.ext_getElem (by simpa using hl) fun i h1 h2 => ?_
    have hi : i < X.length := by omega
    have := h i hi
    rw [getD_getElem hi, getD_getElem h1] at this
    rw [List.getElem_map, this]
  rw [key X Z hl h, key X' Z' hl' h']
  exact hp.map _

theorem perm_of_mapM {α β : Type} {f : α → Except Err β} {X X' : List α} {Z Z' : List β} (h : X.mapM f = .ok Z) (h' : X'.mapM f = .ok Z')
    (hp : X.Perm X') : Z.Perm Z' := by
  rw [mapM_ok_iff] at h h'
  have key : ∀ (X : List α) (Z : List β), List.Forall₂ (fun x y => f x = .ok y) X Z →
      Z.map some = X.map fun x => match f x with | .ok z => some z | _ => none := by
    intro X Z h
    induction h with
    | nil => rfl
    | cons h _ ih => simp only [List.map_cons, h, ih]
  have e : (Z.map some).Perm (Z'.map some) := by
    rw [key X Z h, key X' Z' h']
    exact hp.map _
  have := e.filterMap id
  simpa using this

/-- All the indices, drawn without replacement, are a permutation of the indices. -/
theorem choice_all {g : Rng R} (hg : g.Valid) (c n : ℕ) : (g.choice c n n).Perm (List.range n) := by
  have h1 := hg.choice_nodup c n n le_rfl
  have h2 := hg.choice_lt c n n le_rfl
  have h3 := hg.choice_length c n n le_rfl
  refine List.Subperm.perm_of_length_le ?_ (by rw [h3, List.length_range])
  exact h1.subperm fun x hx => List.mem_range.2 (h2 x hx)

theorem pick_all {α : Type} {g : Rng R} (hg : g.Valid) (c : ℕ) (X : List α) (a : α) :
    ((g.choice c X.length X.length).map fun i => X.getD i a).Perm X := by
  refine ((choice_all hg c X.length).map _).trans ?_
  have : (List.range X.length).map (fun i => X.getD i a) = X := by
    refine List.ext_getElem (by simp) fun i h1 h2 => ?_
    rw [List.getElem_map, List.getElem_range, getD_getElem h2]
  rw [this]

/-! ### Preparateurs -/

theorem meanRows_perm {n : ℕ} {X X' : List (List R)} (h : X.Perm X') : meanRows n X = meanRows n X' := by
  unfold meanRows
  congr 1
  funext t
  rw [(h.map _).sum_eq, h.length_eq]

theorem RDW.alphas_perm {X X' : Data R} (h : X.Perm X') (hX : Uni X) : RDW.alphas X' = RDW.alphas X := by
  obtain ⟨-, h1, h2⟩ := hX.perm h
  unfold RDW.alphas
  rw [h1, h2]
  congr 1
  funext j
  rw [meanRows_perm (h.map _)]

/-- **C167**, preparateurs: what a preparateur learns does not depend on the order of the series. -/
theorem C167_prep_fit [NpMath R] (g : Rng R) (fuel : ℕ) : ∀ (p : Prep R) (X X' : Data R) (q q' : Option (Prep R)), X.Perm X' → Uni X →
    p.fit g fuel X = .ok q → p.fit g fuel X' = .ok q' → q = q'
  | .dim p dims, X, X', q, q', h, hX, e, e' => by
    simp only [Prep.fit] at e e'
    rcases h1 : selectDims dims X with _ | Y
    · rw [h1] at e; cases e
    rcases h2 : selectDims dims X' with _ | Y'
    · rw [h2] at e'; cases e'
    rw [h1, ok_bind] at e
    rw [h2, ok_bind] at e'
    obtain ⟨u1, u2, u3⟩ := selectDims_single hX h1
    obtain ⟨v1, v2, v3⟩ := selectDims_single (hX.perm h).1 h2
    have hp : Y.Perm Y' := perm_of_local u2 u3 v2 v3 h
    rcases h3 : p.fit g fuel Y with _ | r
    · rw [h3] at e; cases e
    rcases h4 : p.fit g fuel Y' with _ | r'
    · rw [h4] at e'; cases e'
    rw [h3, ok_bind] at e
    rw [h4, ok_bind] at e'
    have := C167_prep_fit g fuel p Y Y' r r' hp u1 h3 h4
    subst this
    cases e; cases e'
    rfl
  | .new (some p), X, X', q, q', h, hX, e, e' => by
    simp only [Prep.fit] at e e'
    rcases h3 : p.fit g fuel X with _ | r
    · rw [h3] at e; cases e
    rcases h4 : p.fit g fuel X' with _ | r'
    · rw [h4] at e'; cases e'
    rw [h3, ok_bind] at e
    rw [h4, ok_bind] at e'
    have := C167_prep_fit g fuel p X X' r r' h hX h3 h4
    subst this
    cases e; cases e'
    rfl
  | .new none, X, X', q, q', _, _, e, e' => by cases e; cases e'; rfl
  | .func _, X, X', q, q', _, _, e, e' => by cases e; cases e'; rfl
  | .inc _, X, X', q, q', _, _, e, e' => by cases e; cases e'; rfl
  | .nrm _, X, X', q, q', _, _, e, e' => by cases e; cases e'; rfl
  | .lag, X, X', q, q', _, _, e, e' => by cases e; cases e'; rfl
  | .win _, X, X', q, q', _, _, e, e' => by cases e; cases e'; rfl
  | .spe _, X, X', q, q', _, _, e, e' => by cases e; cases e'; rfl
  | .rpe _, X, X', q, q', _, _, e, e' => by cases e; cases e'; rfl
  | .cts _, X, X', q, q', _, _, e, e' => by cases e; cases e'; rfl
  | .std p, X, X', q, q', h, _, e, e' => by
    cases e; cases e'
    unfold STD.fit npStd
    rw [mean_perm (entries_perm h), variance_perm (entries_perm h)]
  | .mav p, X, X', q, q', h, hX, e, e' => by
    obtain ⟨-, -, h2⟩ := hX.perm h
    cases e; cases e'
    unfold MAV.fit
    rw [h2]
  | .ffn p, X, X', q, q', h, hX, e, e' => by
    obtain ⟨-, h1, -⟩ := hX.perm h
    cases e; cases e'
    unfold FFN.fit
    rw [h1]
  | .dot p, X, X', q, q', h, hX, e, e' => by
    obtain ⟨-, -, h2⟩ := hX.perm h
    cases e; cases e'
    unfold DOT.fit
    rw [h2]
  | .rin p, X, X', q, q', h, hX, e, e' => by
    obtain ⟨-, h1, h2⟩ := hX.perm h
    have : p.fit g fuel X' = p.fit g fuel X := by unfold RIN.fit; rw [h1, h2]
    simp only [Prep.fit] at e e'
    rw [this, e] at e'
    cases e'; rfl
  | .rdw p, X, X', q, q', h, hX, e, e' => by
    obtain ⟨-, h1, -⟩ := hX.perm h
    have : p.fit g X' = p.fit g X := by unfold RDW.fit; rw [h1, RDW.alphas_perm h hX]
    simp only [Prep.fit] at e e'
    rw [this, e] at e'
    cases e'; rfl
  | .jld p, X, X', q, q', h, hX, e, e' => by
    obtain ⟨-, h1, -⟩ := hX.perm h
    have : p.fit g X' = p.fit g X := by unfold JLD.fit; rw [h1]
    simp only [Prep.fit] at e e'
    rw [this, e] at e'
    cases e'; rfl
  | .qtc p, X, X', q, q', h, hX, e, e' => by
    have : p.fit X' = p.fit X := by unfold QTC.fit; rw [quantile_perm (entries_perm h)]
    simp only [Prep.fit] at e e'
    rw [this, e] at e'
    cases e'; rfl
  | .dil p, X, X', q, q', h, hX, e, e' => by
    obtain ⟨-, -, h2⟩ := hX.perm h
    have : p.fit g X' = p.fit g X := by unfold DIL.fit; rw [h2]
    simp only [Prep.fit] at e e'
    rw [this, e] at e'
    cases e'; rfl
  | .pdd p, X, X', q, q', h, hX, e, e' => by
    obtain ⟨-, -, h2⟩ := hX.perm h
    have : p.fit X' = p.fit X := by unfold PDD.fit; rw [h2]
    simp only [Prep.fit] at e e'
    rw [this, e] at e'
    cases e'; rfl

/-! ### Sieves -/

theorem iterM_perm {α : Type} {f : List α → Except Err (List α)}
    (hf : ∀ X X' Z Z', X.Perm X' → f X = .ok Z → f X' = .ok Z' → Z.Perm Z') : ∀ (k : ℕ) (X X' Z Z' : List α), X.Perm X' →
    iterM f k X = .ok Z → iterM f k X' = .ok Z' → Z.Perm Z'
  | 0, X, X', Z, Z', h, e, e' => by cases e; cases e'; exact h
  | k + 1, X, X', Z, Z', h, e, e' => by
    simp only [iterM] at e e'
    rcases h1 : f X with _ | Y
    · rw [h1] at e; cases e
    rcases h2 : f X' with _ | Y'
    · rw [h2] at e'; cases e'
    rw [h1, ok_bind] at e
    rw [h2, ok_bind] at e'
    exact iterM_perm hf k Y Y' Z Z' (hf X X' Y Y' h h1 h2) e e'

theorem preTransform_perm {inc : ℤ} {X X' Z Z' : List (List R)} (h : X.Perm X') (e : preTransform inc X = .ok Z)
    (e' : preTransform inc X' = .ok Z') : Z.Perm Z' := by
  unfold preTransform at e e'
  by_cases h1 : inc > 0
  · rw [if_pos h1] at e e'
    exact iterM_perm (fun _ _ _ _ hp a b => perm_of_mapM a b hp) _ X X' Z Z' h e e'
  rw [if_neg h1] at e e'
  by_cases h2 : inc < 0
  · rw [if_pos h2] at e e'
    refine iterM_perm (fun A A' B B' hp a b => ?_) _ X X' Z Z' h e e'
    cases a; cases b
    exact hp.map _
  rw [if_neg h2] at e e'
  cases e; cases e'
  exact h

theorem wrapIncData_perm {d : ℕ} {k : ℤ} {X X' Z Z' : List (List R)} (h : X.Perm X') (e : wrapIncData d k X = .ok Z)
    (e' : wrapIncData d k X' = .ok Z') : Z.Perm Z' := by
  have key : ∀ (l : List ℕ) (A A' Z Z' : List (List R)), A.Perm A' →
      l.foldlM (fun _ _ => X.mapM (increments1 k)) A = .ok Z → l.foldlM (fun _ _ => X'.mapM (increments1 k)) A' = .ok Z' → Z.Perm Z' := by
    intro l
    induction l with
    | nil => intro A A' Z Z' hA e e'; cases e; cases e'; exact hA
    | cons a l ih =>
      intro A A' Z Z' hA e e'
      rw [List.foldlM_cons] at e e'
      rcases h1 : X.mapM (increments1 k) with _ | Y
      · rw [h1] at e; cases e
      rcases h2 : X'.mapM (increments1 k) with _ | Y'
      · rw [h2] at e'; cases e'
      rw [h1, ok_bind] at e
      rw [h2, ok_bind] at e'
      rw [← h1] at e
      rw [← h2] at e'
      exact ih Y Y' Z Z' (perm_of_mapM h1 h2 h) e e'
  exact key _ X X' Z Z' h e e'

theorem Seg.fit_perm (p : Seg R) {X X' : List (List R)} (h : X.Perm X') : p.fit X = p.fit X' := by
  unfold Seg.fit
  have : quantileValue X.flatten = quantileValue X'.flatten := by
    funext q
    unfold quantileValue
    rw [quantile_perm h.flatten]
  rw [this]

theorem PPV.fit_perm {g : Rng R} (hg : g.Valid) (p : PPV R) (hp : p.sampleSize = 1) {X X' : List (List R)} (h : X.Perm X') :
    p.fit g X = p.fit g X' := by
  unfold PPV.fit
  have : p.fitValue g X = p.fitValue g X' := by
    funext e
    unfold PPV.fitValue
    rw [hp, one_mul, one_mul]
    have hn : ∀ n : ℕ, pyInt ((n : ℕ) : R) = (n : ℤ) := fun n => by
      unfold pyInt
      simp
    rw [hn, hn]
    rcases X with _ | ⟨x, X⟩
    · rw [h.nil_eq]
    have hX' : 1 ≤ X'.length := by rw [← h.length_eq]; simp
    have e1 : (max (((x :: X).length : ℕ) : ℤ) 1).toNat = (x :: X).length := by simp
    have e2 : (max ((X'.length : ℕ) : ℤ) 1).toNat = X'.length := by omega
    rw [e1, e2, quantile_perm (((pick_all hg e.2 (x :: X) []).trans (h.trans (pick_all hg e.2 X' []).symm)).flatten)]
  rw [this]

/-- The sieves that learn from all the series: `PPV` and `CPV` with `sample_size=1`, and all others. -/
def Sieve.UsesAll : Sieve R → Prop
  | .ppv p | .cpv p => p.sampleSize = 1
  | .wrapInc s _ _ | .wrapInt s => s.UsesAll
  | _ => True

/-- **C167**, sieves: what a sieve learns does not depend on the order of the series (nor on how `PPV` draws its sample of all the series). -/
theorem C167_sieve_fit {g : Rng R} (hg : g.Valid) : ∀ (s : Sieve R) (X X' : List (List R)) (t t' : Sieve R), s.UsesAll → X.Perm X' →
    s.fit g X = .ok t → s.fit g X' = .ok t' → t = t'
  | .seg k p, X, X', t, t', _, h, e, e' => by
    simp only [Sieve.fit] at e e'
    rw [← p.fit_perm h, e] at e'
    cases e'; rfl
  | .inc k i p, X, X', t, t', _, h, e, e' => by
    simp only [Sieve.fit, Seg.incFit] at e e'
    rcases h1 : preTransform i X with _ | Y
    · rw [h1] at e; cases e
    rcases h2 : preTransform i X' with _ | Y'
    · rw [h2] at e'; cases e'
    rw [h1, ok_bind] at e
    rw [h2, ok_bind, ← p.fit_perm (preTransform_perm h h1 h2), e] at e'
    cases e'; rfl
  | .ppv p, X, X', t, t', hu, h, e, e' => by
    simp only [Sieve.fit] at e e'
    rw [← PPV.fit_perm hg p hu h, e] at e'
    cases e'; rfl
  | .cpv p, X, X', t, t', hu, h, e, e' => by
    simp only [Sieve.fit] at e e'
    rw [← PPV.fit_perm hg p hu h, e] at e'
    cases e'; rfl
  | .wrapInc s d k, X, X', t, t', hu, h, e, e' => by
    simp only [Sieve.fit] at e e'
    rcases h1 : wrapIncData d k X with _ | Y
    · rw [h1] at e; cases e
    rcases h2 : wrapIncData d k X' with _ | Y'
    · rw [h2] at e'; cases e'
    rw [h1, ok_bind] at e
    rw [h2, ok_bind] at e'
    rcases h3 : s.fit g Y with _ | r
    · rw [h3] at e; cases e
    rcases h4 : s.fit g Y' with _ | r'
    · rw [h4] at e'; cases e'
    rw [h3, ok_bind] at e
    rw [h4, ok_bind] at e'
    have := C167_sieve_fit hg s Y Y' r r' hu (wrapIncData_perm h h1 h2) h3 h4
    subst this
    cases e; cases e'; rfl
  | .wrapInt s, X, X', t, t', hu, h, e, e' => by
    simp only [Sieve.fit] at e e'
    rcases h3 : s.fit g (X.map cumsum) with _ | r
    · rw [h3] at e; cases e
    rcases h4 : s.fit g (X'.map cumsum) with _ | r'
    · rw [h4] at e'; cases e'
    rw [h3, ok_bind] at e
    rw [h4, ok_bind] at e'
    have := C167_sieve_fit hg s _ _ r r' hu (h.map _) h3 h4
    subst this
    cases e; cases e'; rfl

theorem Sieve.copy_usesAll {o : List R → List R} : ∀ s t : Sieve R, s.copy o = .ok t → s.UsesAll → t.UsesAll
  | .seg _ _, t, h, _ => by cases h; trivial
  | .inc _ _ _, t, h, _ => by cases h; trivial
  | .ppv p, t, h, hu => by
    simp only [Sieve.copy] at h
    rcases hp : PPV.new o (.list (p.qc.map (·.1))) (.list (p.qc.map (·.2))) p.sampleSize p.segments with e | q
    · rw [hp] at h; cases h
    · rw [hp, ok_bind] at h
      cases h
      unfold PPV.new at hp
      rcases ha : PPV.args (.list (p.qc.map (·.1))) (.list (p.qc.map (·.2))) with e | ⟨qs, cs⟩
      · rw [ha] at hp; cases hp
      rw [ha, ok_bind] at hp
      simp only at hp
      split at hp
      · cases hp
      split at hp
      · cases hp
      cases hp
      exact hu
  | .cpv p, t, h, hu => by
    simp only [Sieve.copy] at h
    rcases hp : PPV.new o (.list (p.qc.map (·.1))) (.list (p.qc.map (·.2))) p.sampleSize p.segments with e | q
    · rw [hp] at h; cases h
    · rw [hp, ok_bind] at h
      cases h
      unfold PPV.new at hp
      rcases ha : PPV.args (.list (p.qc.map (·.1))) (.list (p.qc.map (·.2))) with e | ⟨qs, cs⟩
      · rw [ha] at hp; cases hp
      rw [ha, ok_bind] at hp
      simp only at hp
      split at hp
      · cases hp
      split at hp
      · cases hp
      cases hp
      exact hu
  | .wrapInc s d k, t, h, hu => by
    simp only [Sieve.copy] at h
    rcases hp : s.copy o with e | q
    · rw [hp] at h; cases h
    · rw [hp, ok_bind] at h; cases h; exact Sieve.copy_usesAll s q hp hu
  | .wrapInt s, t, h, hu => by
    simp only [Sieve.copy] at h
    rcases hp : s.copy o with e | q
    · rw [hp] at h; cases h
    · rw [hp, ok_bind] at h; cases h; exact Sieve.copy_usesAll s q hp hu

end Fruits
