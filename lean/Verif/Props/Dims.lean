import Verif.Props.IteratedSums

/-! # C147: iterated sums depend only on the dimensions that a word names, and not on their numbers -/

namespace Fruits
set_option linter.unusedSectionVars false

variable {R : Type} [Field R] [LinearOrder R] [IsStrictOrderedRing R] [FloorRing R]

/-! ## Specification -/

/-- `w'` is the word `w` with dimension `d` called `f d` (`d < D`): as many extended letters, the same exponents, no other dimensions and the
same `alpha`. -/
structure Relabelled (f : ℕ → ℕ) (D : ℕ) (w w' : SWord R) : Prop where
  len : w'.els.length = w.els.length
  exps : ∀ k, ∀ d < D, (w'.els.getD k []).getD (f d) 0 = (w.els.getD k []).getD d 0
  rest : ∀ k d', (∀ d < D, f d ≠ d') → (w'.els.getD k []).getD d' 0 = 0
  alpha : w'.getAlpha = w.getAlpha

/-- Dimension `f d` of the series in `X'` is dimension `d` of the series in `X`.  The other dimensions of `X'` are arbitrary. -/
def Moved (f : ℕ → ℕ) (D n : ℕ) (X X' : Data R) : Prop :=
  X'.length = X.length ∧ ∀ j < X.length, ∀ d < D, ∀ t < n, entry (X'.getD j []) (f d) t = entry (X.getD j []) d t

/-! ## Proof -/

private theorem getD_lt {α : Type} {l : List α} (d : α) {k : ℕ} (h : k < l.length) : l.getD k d = l[k] := by simp [List.getD, h]

private theorem getD_ge {α : Type} {l : List α} (d : α) {k : ℕ} (h : l.length ≤ k) : l.getD k d = d := by simp [List.getD, h]

/-- The letter values agree. -/
theorem letters_moved {f : ℕ → ℕ} {D : ℕ} (hf : ∀ a < D, ∀ b < D, f a = f b → a = b) {Z Z' : List (List R)} {t : ℕ}
    (hZ : ∀ d < D, entry Z' (f d) t = entry Z d t) {e e' : List ℤ} (he : e.length ≤ D) (h1 : ∀ d < D, e'.getD (f d) 0 = e.getD d 0)
    (h2 : ∀ d', (∀ d < D, f d ≠ d') → e'.getD d' 0 = 0) : monomial Z' e' t = monomial Z e t ∧ linform Z' e' t = linform Z e t := by
  obtain ⟨N, hN⟩ : ∃ N, e'.length ≤ N ∧ ∀ d < D, f d < N := by
    refine ⟨e'.length + (Finset.range D).sup f + 1, by omega, fun d hd => ?_⟩
    have := Finset.le_sup (f := f) (Finset.mem_range.2 hd)
    omega
  have himg : (Finset.range D).image f ⊆ Finset.range N := by
    intro x hx
    obtain ⟨d, hd, rfl⟩ := Finset.mem_image.1 hx
    exact Finset.mem_range.2 (hN.2 d (Finset.mem_range.1 hd))
  have hinj : Set.InjOn f (Finset.range D : Set ℕ) := by
    intro a ha b hb h
    exact hf a (by simpa using ha) b (by simpa using hb) h
  have hout : ∀ x ∈ Finset.range N, x ∉ (Finset.range D).image f → e'.getD x 0 = 0 := by
    intro x _ hx
    refine h2 x fun d hd h => hx ?_
    exact Finset.mem_image.2 ⟨d, Finset.mem_range.2 hd, h⟩
  constructor
  · calc monomial Z' e' t = ∏ x ∈ Finset.range N, entry Z' x t ^ (e'.getD x 0) := by
          rw [monomial]
          refine Finset.prod_subset (by simpa using hN.1) fun x _ hx => ?_
          rw [getD_ge _ (by simpa using hx), zpow_zero]
      _ = ∏ x ∈ (Finset.range D).image f, entry Z' x t ^ (e'.getD x 0) := by
          refine (Finset.prod_subset himg fun x h1 h2 => ?_).symm
          rw [hout x h1 h2, zpow_zero]
      _ = ∏ d ∈ Finset.range D, entry Z d t ^ (e.getD d 0) := by
          rw [Finset.prod_image hinj]
          refine Finset.prod_congr rfl fun d hd => ?_
          rw [h1 d (Finset.mem_range.1 hd), hZ d (Finset.mem_range.1 hd)]
      _ = monomial Z e t := by
          rw [monomial]
          refine (Finset.prod_subset (by simpa using he) fun x _ hx => ?_).symm
          rw [getD_ge _ (by simpa using hx), zpow_zero]
  · calc linform Z' e' t = ∑ x ∈ Finset.range N, (e'.getD x 0 : R) * entry Z' x t := by
          rw [linform]
          refine Finset.sum_subset (by simpa using hN.1) fun x _ hx => ?_
          rw [getD_ge _ (by simpa using hx), Int.cast_zero, zero_mul]
      _ = ∑ x ∈ (Finset.range D).image f, (e'.getD x 0 : R) * entry Z' x t := by
          refine (Finset.sum_subset himg fun x h1 h2 => ?_).symm
          rw [hout x h1 h2, Int.cast_zero, zero_mul]
      _ = ∑ d ∈ Finset.range D, (e.getD d 0 : R) * entry Z d t := by
          rw [Finset.sum_image hinj]
          refine Finset.sum_congr rfl fun d hd => ?_
          rw [h1 d (Finset.mem_range.1 hd), hZ d (Finset.mem_range.1 hd)]
      _ = linform Z e t := by
          rw [linform]
          refine (Finset.sum_subset (by simpa using he) fun x _ hx => ?_).symm
          rw [getD_ge _ (by simpa using hx), Int.cast_zero, zero_mul]

/-- The compiled kernels depend only on the letter values. -/
theorem fastSingle_congr (expf : R → R) {k : SemiringKind} (hk : k ≠ .arcticArgmax) {Z Z' : List (List R)} {n : ℕ} (hZ : Rect Z n) (hZ' : Rect Z' n)
    (hne : Z ≠ []) (hne' : Z' ≠ []) {u u' : List (List ℤ)} (hfit : ∀ el ∈ u, Fits Z el) (hfit' : ∀ el ∈ u', Fits Z' el) (hl : u'.length = u.length)
    (h : ∀ j, ∀ t < n, monos Z' u' j t = monos Z u j t ∧ lins Z' u' j t = lins Z u j t) (alpha : List R) {weights : List R} (hw : weights.length = n)
    {ext : ℕ} (he : ext ≤ u.length) (total : Bool) :
    fastSingle expf k Z' u' alpha weights ext total = fastSingle expf k Z u alpha weights ext total := by
  have he' : ext ≤ u'.length := by omega
  have haW : ∀ j, ∀ t < n, aW expf (monos Z' u') (alpha.getD · 0) (weights.getD · 0) j t = aW expf (monos Z u) (alpha.getD · 0) (weights.getD · 0) j t := by
    intro j t ht
    simp only [aW, (h j t ht).1]
  have haP : ∀ j, ∀ t < n, aP (lins Z' u') (alpha.getD · 0) (weights.getD · 0) j t = aP (lins Z u) (alpha.getD · 0) (weights.getD · 0) j t := by
    intro j t ht
    simp only [aP, (h j t ht).2]
  cases k <;> cases total
  · simp only [fastSingle]
    rw [realsSingle_eq expf hZ' hne' hfit' alpha hw he', realsSingle_eq expf hZ hne hfit alpha hw he, hl]
    refine tab_congr fun r hr => tab_congr fun t ht => Finset.sum_congr rfl fun s hs => ?_
    have hs' : s < n := by have := Finset.mem_range.1 hs; omega
    rw [(h _ s hs').1, incSum_congr fun j _ x hx => haW j x (by omega)]
  · simp only [fastSingle]
    rw [totalReals_eq expf hZ' hne' hfit' alpha hw he', totalReals_eq expf hZ hne hfit alpha hw he, hl]
    refine tab_congr fun r hr => tab_congr fun t ht => ?_
    rw [incSum_congr fun j _ x hx => haW j x (by omega)]
  · simp only [fastSingle]
    rw [arcticSingle_eq hZ' hne' hfit' alpha hw he', arcticSingle_eq hZ hne hfit alpha hw he, hl]
    refine tab_congr fun r hr => tab_congr fun t ht => runMax_congr fun s hs => ?_
    rw [(h _ s (by omega)).2, chainMax_congr _ _ fun j _ x hx => haP j x (by omega)]
  · simp only [fastSingle]
    rw [totalArctic_eq hZ' hne' hfit' alpha hw he', totalArctic_eq hZ hne hfit alpha hw he, hl]
    refine tab_congr fun r hr => tab_congr fun t ht => ?_
    rw [chainMax_congr _ _ fun j _ x hx => haP j x (by omega)]
  · exact absurd rfl hk
  · exact absurd rfl hk
  · simp only [fastSingle]
    rw [bayesianSingle_eq expf hZ' hne' hfit' alpha hw he', bayesianSingle_eq expf hZ hne hfit alpha hw he, hl]
    refine tab_congr fun r hr => tab_congr fun t ht => runMax_congr fun s hs => ?_
    rw [(h _ s (by omega)).1, chainMax_congr _ _ fun j _ x hx => haW j x (by omega)]
  · simp only [fastSingle]
    rw [totalBayesian_eq expf hZ' hne' hfit' alpha hw he', totalBayesian_eq expf hZ hne hfit alpha hw he, hl]
    refine tab_congr fun r hr => tab_congr fun t ht => ?_
    rw [chainMax_congr _ _ fun j _ x hx => haW j x (by omega)]

/-- The lookup table of the weighting does not depend on the dimensions. -/
def SameLookup (wt : Option (Weighting R)) (X X' : Data R) (n : ℕ) : Prop :=
  ∀ v, wt = some v → v.lookup X' = v.lookup X ∧ LookupFor v X n

/-- **C147.**  If the words `ws'` are the words `ws` with the dimensions renamed by an injective `f`, and the dataset `X'` (with any number of
dimensions) has in dimension `f d` what `X` has in dimension `d`, then both have the same iterated sums, for every semiring and weighting. -/
theorem C147_dimensions (expf : R → R) {k : SemiringKind} (hk : k ≠ .arcticArgmax) {X X' : Data R} {D D' n : ℕ} {ws ws' : List (SWord R)}
    (h : Admissible X D n ws) (h' : Admissible X' D' n ws') {f : ℕ → ℕ} (hf : ∀ a < D, ∀ b < D, f a = f b → a = b)
    (hw : List.Forall₂ (Relabelled f D) ws ws') (hX : Moved f D n X X') (wt : Option (Weighting R)) (hwt : SameLookup wt X X' n) :
    (⟨ws'.map .simple, .single, k, wt⟩ : ISSConf R).transform expf X' = (⟨ws.map .simple, .single, k, wt⟩ : ISSConf R).transform expf X := by
  rw [single_transform expf hk ws' h'.nonempty, single_transform expf hk ws h.nonempty]
  congr 1
  have main : ∀ w w', w ∈ ws → w' ∈ ws' → Relabelled f D w w' → iteratedSums expf k X' (.simple w') 1 wt = iteratedSums expf k X (.simple w) 1 wt := by
    intro w w' hm hm' hr
    unfold iteratedSums
    dsimp only
    refine List.ext_getElem (by simp [hX.1]) fun j hj' hj => ?_
    have hj1 : j < X'.length := by simpa using hj'
    have hj2 : j < X.length := by simpa using hj
    simp only [List.getElem_mapIdx]
    have hZ := h.data _ (List.getElem_mem hj2)
    have hZ' := h'.data _ (List.getElem_mem hj1)
    have hne : X[j] ≠ [] := by
      intro e; have := hZ.1; rw [e] at this; simp at this; have := h.dims; omega
    have hne' : X'[j] ≠ [] := by
      intro e; have := hZ'.1; rw [e] at this; simp at this; have := h'.dims; omega
    have hp : 1 ≤ w.els.length := List.length_pos_iff.2 (h.letters w hm)
    have hfit : ∀ el ∈ w.els, Fits X[j] el := fun el hel => by unfold Fits; rw [hZ.1]; exact h.fits w hm el hel
    have hfit' : ∀ el ∈ w'.els, Fits X'[j] el := fun el hel => by unfold Fits; rw [hZ'.1]; exact h'.fits w' hm' el hel
    have hval : ∀ i, ∀ t < n, monos X'[j] w'.els i t = monos X[j] w.els i t ∧ lins X'[j] w'.els i t = lins X[j] w.els i t := by
      intro i t ht
      refine letters_moved hf (fun d hd => ?_) ?_ (hr.exps i) (hr.rest i)
      · have := hX.2 j hj2 d hd t ht
        rwa [getD_lt _ hj1, getD_lt _ hj2] at this
      · rcases Nat.lt_or_ge i w.els.length with hi | hi
        · rw [getD_lt _ hi]
          exact h.fits w hm _ (List.getElem_mem hi)
        · rw [getD_ge _ hi]
          simp
    cases wt with
    | none =>
      dsimp only
      have e1 : (X'.map fun Z => (zeros (ncols Z) : List R)).getD j [] = zeros n := by
        simp [List.getD_eq_getElem?_getD, hj1, ncols_eq hZ'.2 hne']
      have e2 : (X.map fun Z => (zeros (ncols Z) : List R)).getD j [] = zeros n := by
        simp [List.getD_eq_getElem?_getD, hj2, ncols_eq hZ.2 hne]
      rw [e1, e2]
      change fastSingle expf k (X'[j]'hj1) w'.els (zeros w'.els.length) (zeros n) 1 true = fastSingle expf k (X[j]'hj2) w.els (zeros w.els.length) (zeros n) 1 true
      rw [hr.len]
      exact fastSingle_congr expf hk hZ.2 hZ'.2 hne hne' hfit hfit' hr.len hval _ (by simp) hp _
    | some v =>
      dsimp only
      obtain ⟨hv1, hv2⟩ := hwt v rfl
      change fastSingle expf k (X'[j]'hj1) w'.els w'.getAlpha ((v.lookup X').getD j []) 1 v.total = fastSingle expf k (X[j]'hj2) w.els w.getAlpha ((v.lookup X).getD j []) 1 v.total
      rw [hv1, hr.alpha]
      refine fastSingle_congr expf hk hZ.2 hZ'.2 hne hne' hfit hfit' hr.len hval _ (hv2.2 _ ?_) hp _
      have : j < (v.lookup X).length := by rw [hv2.1]; exact hj2
      rw [getD_lt _ this]
      exact List.getElem_mem this
  clear h h'
  induction hw with
  | nil => rfl
  | cons a b ih =>
    rw [List.map_cons, List.map_cons, main _ _ (by simp) (by simp) a, ih fun w w' h1 h2 => main w w' (by simp [h1]) (by simp [h2])]

/-! ### the hypotheses are satisfiable -/

/-- The word `[1][2]` on two dimensions and the word `[3][1]` on three dimensions, with `1 ↦ 3` and `2 ↦ 1`. -/
example : Relabelled (R := ℚ) (fun d => if d = 0 then 2 else 0) 2 ⟨[[1], [0, 1]], 2, "[1][2]".toList, none⟩ ⟨[[0, 0, 1], [1]], 3, "[3][1]".toList, none⟩ := by
  refine ⟨rfl, fun k d hd => ?_, fun k d' h => ?_, rfl⟩
  · rcases k with _ | _ | k <;> rcases d with _ | _ | d <;> first | rfl | omega
  · have h0 := h 0 (by decide)
    have h1 := h 1 (by decide)
    rcases k with _ | _ | k <;> rcases d' with _ | _ | _ | d' <;> first | rfl | (simp at h0 h1)

example : Moved (R := ℚ) (fun d => if d = 0 then 2 else 0) 2 2 [[[1, 2], [3, 5]]] [[[3, 5], [7, 7], [1, 2]]] := by
  refine ⟨rfl, fun j hj d hd t ht => ?_⟩
  have : j = 0 := by simpa using hj
  subst this
  rcases d with _ | _ | d <;> rcases t with _ | _ | t <;> first | rfl | omega

example : (⟨[.simple ⟨[[0, 0, 1], [1]], 3, "[3][1]".toList, none⟩], .single, .reals, none⟩ : ISSConf ℚ).transform (fun _ => 1) [[[3, 5], [7, 7], [1, 2]]] =
    .ok [[[0, 5]]] := by decide +kernel

end Fruits
