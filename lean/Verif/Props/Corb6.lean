import Verif.Props.Corb5

/-! # The class `Fruitalyser`, continued (properties C125, C128, C129, C130) -/

namespace Fruits
set_option linter.unusedSectionVars false
variable {R P I W S V : Type} [Field R] [LinearOrder R] [FloorRing R]

/-! ### C125: labels of prepared data -/

/-- The short (or full) text of a preparateur. -/
theorem labelLoop_skip {K : Sem R P I W S V} {w : World R P I W S} {v : Bool} : ∀ (before : List ℕ) (ss : List ℕ) (k : ℕ),
    labelLoop K w v .prepared (before ++ ss) (((before.map fun s => (w.slice s).preps.length).sum + k : ℕ) : ℤ) =
      labelLoop K w v .prepared ss (k : ℤ)
  | [], ss, k => by simp
  | s :: before, ss, k => by
    rw [List.cons_append]
    conv_lhs => unfold labelLoop
    rw [if_pos (by omega)]
    show (do let total ← Except.ok ((w.slice s).preps.length : ℤ); _) = _
    have hsum : ((((s :: before).map fun s => (w.slice s).preps.length).sum + k : ℕ) : ℤ) =
        ((w.slice s).preps.length : ℤ) + (((before.map fun s => (w.slice s).preps.length).sum + k : ℕ) : ℤ) := by
      rw [List.map_cons, List.sum_cons]; push_cast; ring
    rw [ok_bind, hsum, if_neg (by omega), ← labelLoop_skip before ss k]
    congr 1
    omega

/-- **C125**, what the code does: at the level `prepared` the indices count the preparateurs of all slices, and
`label(i, "prepared")` lists the preparateurs of the slice up to this one. -/
theorem C125_prepared_partial {K : Sem R P I W S V} {w : World R P I W S} {f : ℕ} (v : Bool) {before after : List ℕ} {s : ℕ}
    (h : (w.fruit f).slices = before ++ s :: after) {k : ℕ} (hk : k < (w.slice s).preps.length) :
    fruitLabel K w v .prepared f (((before.map fun s => (w.slice s).preps.length).sum + k : ℕ) : ℤ) =
      .ok (List.intercalate " -> ".toList (((w.slice s).preps.take (k + 1)).map fun a => prepText K v (w.prep a))) := by
  rw [fruitLabel, h, labelLoop_skip]
  unfold labelLoop
  rw [if_pos (by omega)]
  show (do let total ← Except.ok ((w.slice s).preps.length : ℤ); _) = _
  rw [ok_bind, if_pos (by exact_mod_cast hk)]
  show (do let ps ← takeE (w.slice s).preps ((k : ℤ) + 1).toNat; pure (orInput (arrows (ps.map fun a => prepText K v (w.prep a))))) = _
  rw [takeE, show ((k : ℤ) + 1).toNat = k + 1 by omega, if_pos (by omega), ok_bind]
  have hne : ((w.slice s).preps.take (k + 1)).map (fun a => prepText K v (w.prep a)) ≠ [] := by
    intro h0
    have := congrArg List.length h0
    rw [List.length_map, List.length_take, List.length_nil] at this; omega
  rw [arrows_intercalate _ hne, orInput, if_neg (append_arrow_ne _), dropArrow_append]
  rfl

/-- Behind the last preparateur `label` raises. -/
theorem C125_out_of_range {K : Sem R P I W S V} {w : World R P I W S} {f : ℕ} (v : Bool) (k : ℕ) :
    fruitLabel K w v .prepared f (((((w.fruit f).slices.map fun s => (w.slice s).preps.length).sum + k : ℕ)) : ℤ) = .error .indexError := by
  have := labelLoop_skip (K := K) (w := w) (v := v) (w.fruit f).slices [] k
  rw [List.append_nil] at this
  rw [fruitLabel, this, labelLoop, if_pos (by omega)]

/-- **C125** holds for fruits all of whose slices have exactly one preparateur: `label(i, "prepared")` is the text of the
preparateurs of slice `i`. -/
theorem C125_one_each_partial {K : Sem R P I W S V} {w : World R P I W S} {f : ℕ} (v : Bool)
    (h : ∀ s ∈ (w.fruit f).slices, (w.slice s).preps.length = 1) {i : ℕ} {s : ℕ} (hs : (w.fruit f).slices[i]? = some s) :
    fruitLabel K w v .prepared f (i : ℤ) = .ok (List.intercalate " -> ".toList ((w.slice s).preps.map fun a => prepText K v (w.prep a))) := by
  obtain ⟨hi, rfl⟩ := List.getElem?_eq_some_iff.1 hs
  have hsplit : (w.fruit f).slices = (w.fruit f).slices.take i ++ (w.fruit f).slices[i] :: (w.fruit f).slices.drop (i + 1) := by
    rw [← List.drop_eq_getElem_cons hi, List.take_append_drop]
  have hone := h _ (List.getElem_mem hi)
  have := C125_prepared_partial (K := K) v hsplit (k := 0) (by omega)
  have hsum : (((w.fruit f).slices.take i).map fun s => (w.slice s).preps.length).sum = i := by
    have : (((w.fruit f).slices.take i).map fun s => (w.slice s).preps.length) = List.replicate i 1 := by
      rw [List.eq_replicate_iff]
      refine ⟨by simp; omega, fun x hx => ?_⟩
      obtain ⟨t, ht, rfl⟩ := List.mem_map.1 hx
      exact h t (List.mem_of_mem_take ht)
    rw [this]; simp
  rw [hsum, Nat.add_zero] at this
  rw [this, List.take_of_length_le (by omega)]

/-! ### C128: plots of prepared data -/

/-- **C128**, prepared data.  After `transform_all(save_prepared=True)`, `plot("prepared", index=k, dim=j)` draws dimension `j` of the
test set after the preparateurs of slice `k`.  Its title is `label(k, "prepared")`, see C125. -/
theorem C128_prepared_partial {K : Sem R P I W S V} (hK : K.KeepsRows) (hC : K.CountsRight) (hN : K.KeepsN) {ρ : ℕ → Rng R}
    {w₀ w w' : World R P I W S} {ops : List (Op R P I W S)} (hist : Hist K ρ w₀ ops w) (h0 : w₀.Empty) {i v : Bool} {a a' : Analyser R V}
    (hf : a.fruit < w.nFruit) (h : transformAll K ρ none true i v a w = (.ok (), a', w'))
    (hpos : ∀ s ∈ (w'.fruit a.fruit).slices, ∀ x ∈ (w'.slice s).sieves, 0 ≤ K.sieveN (w'.sieve x)) (dim : ℕ) {k s : ℕ}
    (hs : (w'.fruit a.fruit).slices[k]? = some s) :
    plotData K w' .prepared (some (k : ℤ)) dim a' = (prepared K w' a.Xtest a.Xtest s).mapM fun Z => pyAt Z (dim : ℤ) := by
  obtain ⟨hfit, F, G, tr, c, hF, hG, hc, rfl⟩ := transformAll_ok h
  obtain ⟨hist', hf'⟩ := fit_hist hist h0 hf hfit
  obtain ⟨c', hc', hp, _⟩ := C127_saved hK hC hN hist' h0 hf' hpos rfl hG (j := 0) (by omega) true i v
  rw [hc] at hc'
  obtain rfl : c = c' := Except.ok.inj hc'
  show (do
    let c ← attr (some c)
    let l ← savedOr c.prepared
    let X ← pyAt l (k : ℤ)
    X.mapM fun Z => pyAt Z (dim : ℤ)) = _
  simp only [ok_bind, attr, hp, savedOr, if_true]
  rw [pyAt_of (x := prepared K w' a.Xtest a.Xtest s) (by rw [List.getElem?_map, hs]; rfl), ok_bind]

/-- **C128**, no index.  Without an index the series and the title are those of index 0, on each level. -/
theorem C128_default (K : Sem R P I W S V) (w : World R P I W S) (level : PlotLevel) (dim : ℕ) (a : Analyser R V) :
    plotData K w level none dim a = plotData K w level (some 0) dim a ∧ plotTitle K w level none a = plotTitle K w level (some 0) a := by
  cases level <;> exact ⟨rfl, rfl⟩

/-! ### C129: the table of features -/

theorem selectCol {F : List (List V)} {c : ℕ} {N : ℕ} (hF : ∀ r ∈ F, r.length = N) (hc : c < N) :
    ∃ col, (F.mapM fun r => pyAt r (c : ℤ)) = .ok col ∧ col.map some = F.map fun r => r[c]? := by
  induction F with
  | nil => exact ⟨[], rfl, rfl⟩
  | cons r F ih =>
    obtain ⟨col, h1, h2⟩ := ih fun r hr => hF r (by simp [hr])
    have hr := hF r (by simp)
    have hx : r[c]? = some r[c] := List.getElem?_eq_getElem _
    refine ⟨r[c] :: col, ?_, ?_⟩
    · rw [List.mapM_cons, pyAt_of hx, h1]; rfl
    · simp [h2]

/-- The datasets of a source. -/
def sourceSets (a : Analyser R V) : Source → List (Data R)
  | .train => [a.Xtrain]
  | .test => [a.Xtest]
  | .all => [a.Xtrain, a.Xtest]

/-- What the features of the source are. -/
theorem sourceFeatures_spec {K : Sem R P I W S V} (hK : K.KeepsRows) (hC : K.CountsRight) (hN : K.KeepsN) {ρ : ℕ → Rng R}
    {w₀ w w' : World R P I W S} {ops : List (Op R P I W S)} (hist : Hist K ρ w₀ ops w) (h0 : w₀.Empty) {p i v : Bool} {a a' : Analyser R V}
    (hf : a.fruit < w.nFruit) (h : transformAll K ρ none p i v a w = (.ok (), a', w'))
    (hpos : ∀ s ∈ (w'.fruit a.fruit).slices, ∀ x ∈ (w'.slice s).sieves, 0 ≤ K.sieveN (w'.sieve x))
    (htrain : 0 < a.Xtrain.length) (htest : 0 < a.Xtest.length) :
    ∃ cols, columns K w' a.fruit = .ok cols ∧ fruitN K w' a.fruit = .ok (cols.length : ℤ) ∧
      (∀ (c : ℕ) (hc : c < cols.length), fruitLabel K w' true .features a.fruit (c : ℤ) = colLabel K w' true cols[c]) ∧
      (∀ c : ℕ, cols.length ≤ c → fruitLabel K w' true .features a.fruit (c : ℤ) = .error .indexError) ∧
      ∀ source, ∃ F, sourceFeatures a' source = .ok F ∧ (∀ r ∈ F, r.length = cols.length) ∧
        F.map (List.map some) = (sourceSets a source).flatMap fun X => (List.range X.length).map fun i =>
          cols.map fun c => (colValue K w' X X i c).map K.post := by
  obtain ⟨hfit, F, G, tr, c, hF, hG, hc, rfl⟩ := transformAll_ok h
  obtain ⟨hist', hf'⟩ := fit_hist hist h0 hf hfit
  have hwf := hist'.wf (World.WF.empty h0)
  have hfitted := fruitTransform_fitted hG
  have hiss : ∀ s ∈ (w'.fruit a.fruit).slices, (w'.slice s).iss ≠ [] := fun s hs =>
    IssInv.hist hist' h0 s (hwf.slices _ hf' s hs) (hfitted.2 s hs)
  obtain ⟨cols, h1, h2, h3, h4⟩ := C73_layout hK hC hN hist' h0 hf' hpos rfl hG
  have hF' : fruitTransform K w' 0 a.fruit a.Xtrain a.Xtrain = (.ok F, (fruitTransform K w' 0 a.fruit a.Xtrain a.Xtrain).2) := Prod.ext hF rfl
  obtain ⟨cols', h1', _, h3', h4'⟩ := C73_layout hK hC hN hist' h0 hf' hpos rfl hF'
  rw [h1] at h1'
  obtain rfl := Except.ok.inj h1'
  have hlab := C75_label hiss hpos h1 true
  have rows : ∀ {X : Data R} {F : List (List V)}, F.length = X.length → (∀ i < X.length, (F.getD i []).length = cols.length ∧
      (F.getD i []).map some = cols.map fun c => (colValue K w' X X i c).map K.post) →
      (∀ r ∈ F, r.length = cols.length) ∧
      F.map (List.map some) = (List.range X.length).map fun i => cols.map fun c => (colValue K w' X X i c).map K.post := by
    intro X F hl hrow
    constructor
    · intro r hr
      obtain ⟨i, hi, rfl⟩ := List.getElem_of_mem hr
      have := (hrow i (by omega)).1
      simpa [hi] using this
    · apply List.ext_getElem
      · simp [hl]
      · intro i hi1 hi2
        have hi : i < F.length := by simpa using hi1
        have := (hrow i (by omega)).2
        simpa [hi] using this
  obtain ⟨r1, r2⟩ := rows h3 h4
  obtain ⟨q1, q2⟩ := rows h3' h4'
  refine ⟨cols, h1, h2, hlab.1, hlab.2.1, fun source => ?_⟩
  cases source with
  | train => exact ⟨F, rfl, q1, by rw [q2]; simp [sourceSets]⟩
  | test => exact ⟨G, rfl, r1, by rw [r2]; simp [sourceSets]⟩
  | all =>
    refine ⟨F ++ G, ?_, ?_, by rw [List.map_append, q2, r2]; simp [sourceSets]⟩
    · show (do
        let F ← attr (some F)
        let G ← attr (some G)
        if (F.getD 0 []).length = (G.getD 0 []).length then .ok (F ++ G) else .error .valueError) = _
      simp only [attr, ok_bind]
      rw [if_pos]
      rw [(h4 0 htest).1, (h4' 0 htrain).1]
    · intro r hr
      rcases List.mem_append.1 hr with hr | hr
      · exact q1 r hr
      · exact r1 r hr

/-- **C129.**  After `transform_all`, `features(indices, source)` returns a table with one column for each index, in order: its name is the
label of this feature, and its entries are the values of this feature for the series of the source (training set, test set, or both
one below the other), computed with the fitted fruit. -/
theorem C129_features {K : Sem R P I W S V} (hK : K.KeepsRows) (hC : K.CountsRight) (hN : K.KeepsN) {ρ : ℕ → Rng R}
    {w₀ w w' : World R P I W S} {ops : List (Op R P I W S)} (hist : Hist K ρ w₀ ops w) (h0 : w₀.Empty) {p i v : Bool} {a a' : Analyser R V}
    (hf : a.fruit < w.nFruit) (h : transformAll K ρ none p i v a w = (.ok (), a', w'))
    (hpos : ∀ s ∈ (w'.fruit a.fruit).slices, ∀ x ∈ (w'.slice s).sieves, 0 ≤ K.sieveN (w'.sieve x))
    (htrain : 0 < a.Xtrain.length) (htest : 0 < a.Xtest.length) (source : Source) :
    ∃ cols, columns K w' a.fruit = .ok cols ∧
      (∀ indices : List ℕ, (∀ c ∈ indices, ∃ x l, cols[c]? = some x ∧ colLabel K w' true x = .ok l) →
        ∃ table, featureTable K w' (some (indices.map (Nat.cast : ℕ → ℤ))) source a' = .ok table ∧
          List.Forall₂ (fun c entry => ∃ x, cols[c]? = some x ∧ colLabel K w' true x = .ok entry.1 ∧
            entry.2.map some = (sourceSets a source).flatMap fun X => (List.range X.length).map fun i => (colValue K w' X X i x).map K.post)
            indices table) ∧
      (∀ indices : List ℤ, (∃ c ∈ indices, c < 0 ∨ (cols.length : ℤ) ≤ c) → ∀ table, featureTable K w' (some indices) source a' ≠ .ok table) ∧
      featureTable K w' none source a' = featureTable K w' (some ((List.range cols.length).map (Nat.cast : ℕ → ℤ))) source a' := by
  obtain ⟨cols, h1, h2, h3, h3', h4⟩ := sourceFeatures_spec hK hC hN hist h0 hf h hpos htrain htest
  obtain ⟨F, hF, hr, hv⟩ := h4 source
  have hfr : a'.fruit = a.fruit := by
    obtain ⟨_, _, _, _, _, _, _, _, rfl⟩ := transformAll_ok h
    rfl
  refine ⟨cols, h1, fun indices hi => ?_, fun indices hbad table ht => ?_, ?_⟩
  · have hstep : ∀ c ∈ indices, ∃ entry, (do
        let col ← F.mapM fun r => pyAt r (c : ℤ)
        let name ← fruitLabel K w' true .features a'.fruit (c : ℤ)
        pure (name, col) : Except Err (PStr × List V)) = .ok entry ∧ ∃ x, cols[c]? = some x ∧ colLabel K w' true x = .ok entry.1 ∧
          entry.2.map some = (sourceSets a source).flatMap fun X => (List.range X.length).map fun i => (colValue K w' X X i x).map K.post := by
      intro c hc
      obtain ⟨x, l, hx, hl⟩ := hi c hc
      obtain ⟨hlt, rfl⟩ := List.getElem?_eq_some_iff.1 hx
      obtain ⟨col, hcol, hval⟩ := selectCol hr hlt
      refine ⟨(l, col), by rw [hcol, hfr, h3 c hlt, hl]; rfl, cols[c], hx, hl, ?_⟩
      rw [hval]
      have := congrArg (List.map fun r : List (Option V) => r[c]?) hv
      rw [List.map_map, List.map_flatMap] at this
      simp only [List.map_map, Function.comp_def, List.getElem?_map, hx, Option.map_some] at this
      have h5 : (F.map fun r => r[c]?.map some) = F.map fun r => some (r[c]?) := by
        apply List.map_congr_left
        intro r hr'
        rw [List.getElem?_eq_getElem (by rw [hr r hr']; exact hlt)]; rfl
      rw [h5] at this
      have h6 := congrArg (List.map fun o : Option (Option V) => o.getD none) this
      simpa [List.map_flatMap, Function.comp_def] using h6
    have : ∀ l : List ℕ, (∀ c ∈ l, c ∈ indices) → ∃ table, ((l.map (Nat.cast : ℕ → ℤ)).mapM fun index => (do
        let col ← F.mapM fun r => pyAt r index
        let name ← fruitLabel K w' true .features a'.fruit index
        pure (name, col) : Except Err (PStr × List V))) = .ok table ∧ List.Forall₂ (fun c entry => ∃ x, cols[c]? = some x ∧
          colLabel K w' true x = .ok entry.1 ∧ entry.2.map some = (sourceSets a source).flatMap fun X => (List.range X.length).map fun i =>
            (colValue K w' X X i x).map K.post) l table := by
      intro l
      induction l with
      | nil => exact fun _ => ⟨[], rfl, .nil⟩
      | cons c l ih =>
        intro hl
        obtain ⟨e, he, hx⟩ := hstep c (hl c (by simp))
        obtain ⟨t, ht, hx'⟩ := ih fun d hd => hl d (by simp [hd])
        exact ⟨e :: t, by rw [List.map_cons, List.mapM_cons, he, ok_bind, ht]; rfl, .cons hx hx'⟩
    obtain ⟨table, ht, hrel⟩ := this indices fun _ h => h
    refine ⟨table, ?_, hrel⟩
    show (do let F ← sourceFeatures a' source; _) = _
    rw [hF, ok_bind, ht]
  · change (do let F ← sourceFeatures a' source; _) = _ at ht
    rw [hF, ok_bind, mapM_ok_iff] at ht
    obtain ⟨c, hc, hbad⟩ := hbad
    obtain ⟨e, he⟩ := forall₂_left ht hc
    have hlab : ∃ x, fruitLabel K w' true .features a'.fruit c = .error x := by
      rw [hfr]
      rcases hbad with hneg | hge
      · refine ⟨.runtimeError, ?_⟩
        rw [fruitLabel]
        unfold labelLoop
        rw [if_neg (by omega)]
      · refine ⟨.indexError, ?_⟩
        have := h3' c.toNat (by omega)
        rwa [Int.toNat_of_nonneg (by omega)] at this
    obtain ⟨x, hx⟩ := hlab
    rcases hcol : (F.mapM fun r => pyAt r c) with y | col
    · rw [hcol] at he; simp at he
    · rw [hcol, ok_bind, hx] at he; simp at he
  · unfold featureTable
    rw [hfr, h2]
    rfl

end Fruits
