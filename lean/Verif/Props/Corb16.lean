import Verif.Props.Corb14
import Verif.Props.Corb7

/-! # C128, C143, C144: what `Fruitalyser.plot` and `scatter_features` show, whole calls -/

namespace Fruits
set_option linter.unusedSectionVars false

variable {R P I W S V T : Type} [Field R] [LinearOrder R] [IsStrictOrderedRing R] [FloorRing R]

/-- **C143** (whole call): `plot(level="input", dim=dim, mean=True)` draws one line for each class of the targets of the test set: the mean of
dimension `dim` of the test series of this class. -/
theorem C143_plot_input {K : Sem R P I W S V} {w : World R P I W S} {a : Analyser R V} {m d n : ℕ} (hX : HasShape a.Xtest m d n)
    (hy : a.ytest.length = m) {dim : ℕ} (hdim : dim < d) (index : Option ℤ) (bounds perClass : Bool) (nseries : ℕ) :
    ∃ cs ls, IsClasses a.ytest cs ∧ plot K w .input index dim true bounds nseries perClass a = .ok (ls, "Input Data".toList) ∧
      ls.length = cs.length ∧ ∀ (i : ℕ) (h : i < ls.length) (h' : i < cs.length),
        IsMeanLine (tab m fun j => tab n fun t => at3 a.Xtest j dim t) a.ytest n bounds cs[i] i ls[i] := by
  have hdata : plotData K w .input index dim a = .ok (tab m fun j => tab n fun t => at3 a.Xtest j dim t) := by
    show (a.Xtest.mapM fun Z => pyAt Z (dim : ℤ)) = _
    have h : ∀ X : Data R, (∀ Z ∈ X, dim < Z.length) → (X.mapM fun Z => pyAt Z (dim : ℤ)) = .ok (X.map fun Z => Z.getD dim []) := by
      intro X hX
      induction X with
      | nil => rfl
      | cons Z X ih =>
        have hZ := hX Z (by simp)
        rw [List.mapM_cons, pyAt_of (List.getElem?_eq_getElem hZ), ok_bind, ih fun Z' h => hX Z' (by simp [h]), ok_bind, List.map_cons,
          getD_getElem hZ]
        rfl
    rw [h _ fun Z hZ => by rw [(hX.2 Z hZ).1]; exact hdim]
    congr 1
    apply List.ext_getElem
    · simp [hX.1]
    intro j h1 h2
    have hj : j < a.Xtest.length := by simpa using h1
    have hs := hX.2 _ (List.getElem_mem hj)
    simp only [List.getElem_map, tab_getElem]
    apply List.ext_getElem
    · rw [getD_getElem (by rw [hs.1]; exact hdim), tab_length]; exact hs.2 _ (List.getElem_mem _)
    intro t h3 h4
    simp only [tab_getElem, at3]
    rw [getD_getElem hj, getD_getElem h3]
  obtain ⟨cs, ls, h1, h2, h3, h4⟩ := C143_mean (tab m fun j => tab n fun t => at3 a.Xtest j dim t) a.ytest n nseries bounds perClass
    (by rw [hy, tab_length]) (fun r hr => by obtain ⟨j, _, rfl⟩ := mem_tab.1 hr; simp)
  refine ⟨cs, ls, h1, ?_, h3, h4⟩
  unfold plot
  rw [hdata, ok_bind, h2, ok_bind]
  rfl

/-- **C143** (whole call): the classes of the other plots are those of the test set, too. -/
theorem C143_plot_per_class {K : Sem R P I W S V} {w : World R P I W S} {a : Analyser R V} {level : PlotLevel} {index : Option ℤ} {dim : ℕ}
    {X : List (List R)} {title : PStr} (hdata : plotData K w level index dim a = .ok X) (htitle : plotTitle K w level index a = .ok title)
    (hlen : a.ytest.length = X.length) (nseries : ℕ) (bounds : Bool) :
    ∃ cs, IsClasses a.ytest cs ∧
      ((∀ c ∈ a.ytest, nseries ≤ (membersOf a.ytest c).length) → plot K w level index dim false bounds nseries true a =
        .ok (cs.zipIdx.flatMap fun p => ((membersOf a.ytest p.1).take nseries).map fun k => ⟨some p.2, X.getD k [], none⟩, title)) ∧
      ((∃ c ∈ a.ytest, (membersOf a.ytest c).length < nseries) → plot K w level index dim false bounds nseries true a = .error .indexError) := by
  obtain ⟨cs, h1, h2, h3⟩ := C143_per_class X a.ytest nseries bounds hlen
  refine ⟨cs, h1, fun h => ?_, fun h => ?_⟩
  · unfold plot; rw [hdata, ok_bind, h2 h, ok_bind, htitle]; rfl
  · unfold plot; rw [hdata, ok_bind, h3 h]; rfl

/-- **C128**: without saved results `plot` raises `AttributeError` before `transform_all`, `RuntimeError` after a `transform_all` that did not
save what is to be plotted. -/
theorem C128_not_saved {K : Sem R P I W S V} {w : World R P I W S} {a : Analyser R V} (index : Option ℤ) (dim : ℕ) (mean bounds : Bool) (nseries : ℕ)
    (perClass : Bool) :
    (a.saved = none → plot K w .prepared index dim mean bounds nseries perClass a = .error .attributeError) ∧
    (∀ {ρ : ℕ → Rng R} {w₀ : World R P I W S} {a₀ : Analyser R V} {i v : Bool}, transformAll K ρ none false i v a₀ w₀ = (.ok (), a, w) →
      plot K w .prepared index dim mean bounds nseries perClass a = .error .runtimeError) ∧
    (∀ {ρ : ℕ → Rng R} {w₀ : World R P I W S} {a₀ : Analyser R V} {p v : Bool}, transformAll K ρ none p false v a₀ w₀ = (.ok (), a, w) →
      ∀ path, splitIndex K w a.fruit (index.getD 0) .iterated = .ok path →
      plot K w .iterated index dim mean bounds nseries perClass a = .error .runtimeError) := by
  have keep : ∀ (es : List (Event R V)) (c c' : Saved R V), c.after es = .ok c' →
      (c.prepared = none → c'.prepared = none) ∧ (c.iterated = none → c'.iterated = none) := by
    intro es
    induction es with
    | nil =>
      intro c c' h
      obtain rfl : c = c' := Except.ok.inj h
      exact ⟨id, id⟩
    | cons e es ih =>
      intro c c' h
      unfold Saved.after at h
      rw [List.foldlM_cons] at h
      cases h1 : c.on e with
      | error x => rw [h1] at h; cases h
      | ok c1 =>
        rw [h1, ok_bind] at h
        obtain ⟨k1, k2⟩ := ih c1 c' h
        have : (c.prepared = none → c1.prepared = none) ∧ (c.iterated = none → c1.iterated = none) := by
          cases e with
          | iteratedSum X =>
            simp only [Saved.on] at h1
            split at h1
            · obtain rfl := Except.ok.inj h1; exact ⟨id, id⟩
            · rename_i l hl
              cases h2 : pyAt l c.slc with
              | error x => rw [h2] at h1; cases h1
              | ok row =>
                rw [h2, ok_bind] at h1
                obtain rfl := Except.ok.inj h1
                exact ⟨id, fun h => by rw [hl] at h; cases h⟩
          | _ =>
            simp only [Saved.on] at h1
            obtain rfl := Except.ok.inj h1
            exact ⟨fun h => by simp [h], fun h => by simp [h]⟩
        exact ⟨fun h => k1 (this.1 h), fun h => k2 (this.2 h)⟩
  refine ⟨fun h => ?_, fun h => ?_, fun h path hp => ?_⟩
  · unfold plot plotData
    simp only [h]
    rfl
  · obtain ⟨_, _, _, _, c, _, _, hc, rfl⟩ := transformAll_ok h
    have := (keep _ _ _ hc).1 rfl
    unfold plot plotData
    simp only [attr, ok_bind, this]
    rfl
  · obtain ⟨_, _, _, _, c, _, _, hc, rfl⟩ := transformAll_ok h
    have := (keep _ _ _ hc).2 rfl
    unfold plot plotData
    simp only [attr, hp, ok_bind, this]
    rfl

/-- **C128** (negative indices): `plot("prepared", index=-k)` draws the data of the `k`-th slice from behind, and raises `IndexError` for indices
below minus the number of slices and from the number of slices on. -/
theorem C128_negative {K : Sem R P I W S V} (hK : K.KeepsRows) (hC : K.CountsRight) (hN : K.KeepsN) {ρ : ℕ → Rng R}
    {w₀ w w' : World R P I W S} {ops : List (Op R P I W S)} (hist : Hist K ρ w₀ ops w) (h0 : w₀.Empty) {i v : Bool} {a a' : Analyser R V}
    (hf : a.fruit < w.nFruit) (h : transformAll K ρ none true i v a w = (.ok (), a', w'))
    (hpos : ∀ s ∈ (w'.fruit a.fruit).slices, ∀ x ∈ (w'.slice s).sieves, 0 ≤ K.sieveN (w'.sieve x)) (dim : ℕ) :
    (∀ k : ℕ, 1 ≤ k → k ≤ (w'.fruit a.fruit).slices.length →
      plotData K w' .prepared (some (-(k : ℤ))) dim a' =
        plotData K w' .prepared (some (((w'.fruit a.fruit).slices.length - k : ℕ) : ℤ)) dim a') ∧
    ∀ z : ℤ, z < -((w'.fruit a.fruit).slices.length : ℤ) ∨ ((w'.fruit a.fruit).slices.length : ℤ) ≤ z →
      plotData K w' .prepared (some z) dim a' = .error .indexError := by
  obtain ⟨hfit, F, G, tr, c, hF, hG, hc, rfl⟩ := transformAll_ok h
  obtain ⟨hist', hf'⟩ := fit_hist hist h0 hf hfit
  obtain ⟨c', hc', hp, _⟩ := C127_saved hK hC hN hist' h0 hf' hpos rfl hG (j := 0) (by omega) true i v
  rw [hc] at hc'
  obtain rfl : c = c' := Except.ok.inj hc'
  have e : ∀ z : ℤ, plotData K w' .prepared (some z) dim { a with saved := some c, trainFeat := some F, testFeat := some G, extracted := true } =
      (pyAt ((w'.fruit a.fruit).slices.map (prepared K w' a.Xtest a.Xtest)) z >>= fun X => X.mapM fun Z => pyAt Z (dim : ℤ)) := by
    intro z
    show (do
      let c ← attr (some c)
      let l ← savedOr c.prepared
      let X ← pyAt l z
      X.mapM fun Z => pyAt Z (dim : ℤ)) = _
    simp only [ok_bind, attr, hp, savedOr, if_true]
  constructor
  · intro k h1 h2
    rw [e, e]
    congr 1
    unfold pyAt
    rw [List.length_map, if_neg (by omega), if_pos (by omega), if_pos (by omega)]
    have : ((((w'.fruit a.fruit).slices.length : ℕ) : ℤ) + -(k : ℤ)).toNat = ((((w'.fruit a.fruit).slices.length - k : ℕ) : ℤ)).toNat := by omega
    rw [this]
  · intro z hz
    rw [e]
    have : pyAt ((w'.fruit a.fruit).slices.map (prepared K w' a.Xtest a.Xtest)) z = .error .indexError := by
      unfold pyAt
      rw [List.length_map]
      rcases hz with hz | hz
      · rw [if_neg (by omega), if_neg (by omega)]
      · rw [if_pos (by omega), List.getElem?_eq_none (by rw [List.length_map]; omega)]
    rw [this]
    rfl

/-- **C144**: the class of row `k` of the table of features is the class of the series it belongs to; the rows of `source="all"` are those of the
training set followed by those of the test set (`sourceFeatures_spec`). -/
theorem C144_targets {a : Analyser R V} (htr : a.ytrain.length = a.Xtrain.length) (hte : a.ytest.length = a.Xtest.length) (source : Source) :
    (sourceTargets a source).length = ((sourceSets a source).map List.length).sum ∧
    ∀ k, (sourceTargets a source).getD k 0 = match source with
      | .train => a.ytrain.getD k 0
      | .test => a.ytest.getD k 0
      | .all => if k < a.Xtrain.length then a.ytrain.getD k 0 else a.ytest.getD (k - a.Xtrain.length) 0 := by
  cases source with
  | train => exact ⟨by simp [sourceTargets, sourceSets, htr], fun k => rfl⟩
  | test => exact ⟨by simp [sourceTargets, sourceSets, hte], fun k => rfl⟩
  | all =>
    refine ⟨by simp [sourceTargets, sourceSets, htr, hte], fun k => ?_⟩
    simp only [sourceTargets, List.getD_eq_getElem?_getD, List.getElem?_append, htr]
    split <;> rfl

namespace Demo

/-- The hypotheses of `C128_negative` for the analyser of `Demo`, whose fruit has two slices. -/
example : plotData K ext.2.2 .prepared (some (-((2 : ℕ) : ℤ))) 0 ext.2.1 = plotData K ext.2.2 .prepared (some ((0 : ℕ) : ℤ)) 0 ext.2.1 ∧
    plotData K ext.2.2 .prepared (some (-3)) 0 ext.2.1 = .error .indexError := by
  have h := C128_negative (builtin_keepsRows lib) (builtin_countsRight lib) (builtin_keepsN lib) hist w0_empty (a := an) (by decide +kernel) ext_eq ext_positive 0
  have hl : (ext.2.2.fruit an.fruit).slices.length = 2 := by decide +kernel
  rw [hl] at h
  exact ⟨h.1 2 (by omega) (by omega), h.2 (-3) (Or.inl (by omega))⟩

/-- Nothing saved. -/
example : plot K (transformAll K rng none false false true an w).2.2 .prepared none 0 false false 1 false (transformAll K rng none false false true an w).2.1
    = .error .runtimeError :=
  (C128_not_saved none 0 false false 1 false).2.1 (ρ := rng) (w₀ := w) (a₀ := an) (i := false) (v := true) (Prod.ext (by decide +kernel) rfl)

/-- The hypotheses of `C143_plot_input`. -/
example := C143_plot_input (K := K) (w := w) (a := an) (m := 2) (d := 1) (n := 3) (by unfold HasShape; decide) rfl (dim := 0) (by omega) none true true 2

/-- The hypotheses of `C143_plot_per_class`. -/
example := C143_plot_per_class (K := K) (w := ext.2.2) (a := ext.2.1) (level := .prepared) (index := some 0) (dim := 0) (X := [[1, 1, 2], [0, 1, -1]])
  (title := "INC".toList) (by decide +kernel) (by decide +kernel) (by decide +kernel) 1 false

example := C144_targets (a := an) rfl rfl .all

end Demo

end Fruits
