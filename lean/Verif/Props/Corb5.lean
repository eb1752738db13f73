import Verif.Props.Corb4

/-! # The class `Fruitalyser` (properties C125, C127, C128, C129, C130) -/

namespace Fruits
set_option linter.unusedSectionVars false
variable {R P I W S V : Type} [Field R] [LinearOrder R] [FloorRing R]

/-! ### C127: what the callback saves -/

theorem Saved.on_erase (c : Saved R V) (e : Event R V) : c.on e.erase = c.on e := by cases e <;> rfl

theorem Saved.after_erase : ∀ (es : List (Event R V)) (c : Saved R V), c.after (es.map Event.erase) = c.after es
  | [], _ => rfl
  | e :: es, c => by
    show (c.on e.erase >>= fun d => d.after (es.map Event.erase)) = (c.on e >>= fun d => d.after es)
    rw [Saved.on_erase]
    rcases c.on e with x | d
    · rfl
    · exact Saved.after_erase es d

theorem Saved.after_append (c : Saved R V) (es es' : List (Event R V)) : c.after (es ++ es') = c.after es >>= fun d => d.after es' := by
  unfold Saved.after; rw [List.foldlM_append]

/-- The callback after some slices: prepared data, iterated sums and features of each. -/
def Saved.holding (p i v : Bool) (Ps : List (Data R)) (Is : List (List (List (List R)))) (Vs : List (List (List V))) : Saved R V :=
  { slc := (Is.length : ℤ) - 1, prepared := if p then some Ps else none, iterated := if i then some Is else none, sieved := if v then some Vs else none }

theorem after_preps (es : List (Data R)) (c : Saved R V) : c.after (es.map .preparateur) = .ok c := by
  induction es with
  | nil => rfl
  | cons e es ih => exact ih

theorem after_items (p i v : Bool) (Ps : List (Data R)) (Is : List (List (List (List R)))) (Vs : List (List (List V))) (k : ℕ) :
    ∀ (its : List (List (List R))) (row : List (List (List R))),
    (Saved.holding p i v Ps (Is ++ [row]) Vs).after (its.flatMap fun it => .iteratedSum it :: List.replicate k (.sieve [])) =
      .ok (Saved.holding p i v Ps (Is ++ [row ++ its]) Vs)
  | [], row => by simp [Saved.after]; rfl
  | it :: its, row => by
    have hsv : ∀ (k : ℕ) (c : Saved R V), c.after (List.replicate k (.sieve [])) = .ok c := by
      intro k
      induction k with
      | zero => intro c; rfl
      | succ k ih => intro c; exact ih c
    have hon : (Saved.holding p i v Ps (Is ++ [row]) Vs).on (.iteratedSum it) = .ok (Saved.holding p i v Ps (Is ++ [row ++ [it]]) Vs) := by
      cases i with
      | false => simp [Saved.holding, Saved.on]
      | true =>
        simp [Saved.holding, Saved.on, pyAt]
    rw [List.flatMap_cons, List.cons_append]
    show ((Saved.holding p i v Ps (Is ++ [row]) Vs).on (.iteratedSum it) >>= fun d => d.after _) = _
    rw [hon, ok_bind, Saved.after_append, hsv, ok_bind, after_items p i v Ps Is Vs k its (row ++ [it])]
    simp

theorem after_slice (p i v : Bool) (K : Sem R P I W S V) (w : World R P I W S) (C X : Data R) (s : ℕ) (A : List (List V)) (Ps : List (Data R))
    (Is : List (List (List (List R)))) (Vs : List (List (List V))) :
    (Saved.holding p i v Ps Is Vs).after (sliceEvents K w C X s A) =
      .ok (Saved.holding p i v (Ps ++ [prepared K w C X s]) (Is ++ [(iterateIss K C ((w.slice s).iss.map w.issAt) (prepared K w C X s)).1]) (Vs ++ [A])) := by
  unfold sliceEvents
  rw [List.append_assoc, List.append_assoc, List.cons_append]
  have h1 : (Saved.holding p i v Ps Is Vs).on .nextSlice = .ok (Saved.holding p i v Ps (Is ++ [[]]) Vs) := by
    cases i <;> simp [Saved.holding, Saved.on]
  show ((Saved.holding p i v Ps Is Vs).on .nextSlice >>= fun d => d.after _) = _
  rw [h1, ok_bind, Saved.after_append, after_preps, ok_bind]
  have h2 : (Saved.holding p i v Ps (Is ++ [[]]) Vs).on (.preparationEnd (prepared K w C X s)) =
      .ok (Saved.holding p i v (Ps ++ [prepared K w C X s]) (Is ++ [[]]) Vs) := by
    cases p <;> simp [Saved.holding, Saved.on]
  rw [List.singleton_append]
  show ((Saved.holding p i v Ps (Is ++ [[]]) Vs).on (.preparationEnd (prepared K w C X s)) >>= fun d => d.after _) = _
  rw [h2, ok_bind, Saved.after_append, after_items, ok_bind]
  have h3 : ∀ Is' : List (List (List (List R))), (Saved.holding p i v (Ps ++ [prepared K w C X s]) Is' Vs).on (.sievingEnd A) =
      .ok (Saved.holding p i v (Ps ++ [prepared K w C X s]) Is' (Vs ++ [A])) := by
    intro Is'; cases v <;> simp [Saved.holding, Saved.on]
  show ((Saved.holding p i v _ _ Vs).on (.sievingEnd A) >>= fun d => d.after _) = _
  rw [h3]
  rfl

theorem after_slices (p i v : Bool) (K : Sem R P I W S V) (w : World R P I W S) (C X : Data R) : ∀ (ss : List ℕ) (As : List (List (List V))),
    ss.length = As.length → ∀ (Ps : List (Data R)) (Is : List (List (List (List R)))) (Vs : List (List (List V))),
    (Saved.holding p i v Ps Is Vs).after ((List.zip ss As).flatMap fun q => sliceEvents K w C X q.1 q.2) =
      .ok (Saved.holding p i v (Ps ++ ss.map fun s => prepared K w C X s)
        (Is ++ ss.map fun s => (iterateIss K C ((w.slice s).iss.map w.issAt) (prepared K w C X s)).1) (Vs ++ As))
  | [], [], _, Ps, Is, Vs => by simp [Saved.after]; rfl
  | s :: ss, A :: As, h, Ps, Is, Vs => by
    rw [List.zip_cons_cons, List.flatMap_cons, Saved.after_append, after_slice, ok_bind,
      after_slices p i v K w C X ss As (by simpa using h)]
    simp

/-- **C127.**  In a successful `transform(X, callbacks=[c])` after any history, a callback that saves prepared data, iterated sums and
features (each if wanted) never raises, and holds afterwards, for each slice in order: the data after all preparateurs, the list of
all iterated sums, and the features of the slice. -/
theorem C127_saved {K : Sem R P I W S V} (hK : K.KeepsRows) (hC : K.CountsRight) (hN : K.KeepsN) {ρ : ℕ → Rng R}
    {w₀ w : World R P I W S} {ops : List (Op R P I W S)} (hist : Hist K ρ w₀ ops w) (h0 : w₀.Empty) {f : ℕ} (hf : f < w.nFruit)
    (hpos : ∀ s ∈ (w.fruit f).slices, ∀ a ∈ (w.slice s).sieves, 0 ≤ K.sieveN (w.sieve a))
    {n : ℕ} {C X : Data R} (hCX : C.length = X.length) {A : List (List V)} {tr : Trace R V} (h : fruitTransform K w n f C X = (.ok A, tr))
    {j : ℕ} (hj : j < n) (p i v : Bool) :
    ∃ c, (Saved.new p i v).after (seenBy j tr) = .ok c ∧
      c.prepared = (if p then some ((w.fruit f).slices.map (prepared K w C X)) else none) ∧
      c.iterated = (if i then some ((w.fruit f).slices.map fun s => (iterateIss K C ((w.slice s).iss.map w.issAt) (prepared K w C X s)).1) else none) ∧
      ∃ As, List.Forall₂ (fun s B => (sliceTransform K w n s C X).1 = .ok B) (w.fruit f).slices As ∧
        c.sieved = if v then some As else none := by
  obtain ⟨As, h1, _, _, h4⟩ := C82_callbacks_partial hK hC hN hist h0 hf hpos hCX h
  have hnew : (Saved.new p i v : Saved R V) = Saved.holding p i v [] [] [] := rfl
  refine ⟨Saved.holding p i v ((w.fruit f).slices.map (prepared K w C X))
    ((w.fruit f).slices.map fun s => (iterateIss K C ((w.slice s).iss.map w.issAt) (prepared K w C X s)).1) As, ?_, rfl, rfl, As, h1, rfl⟩
  rw [← Saved.after_erase, h4 j hj, hnew, after_slices p i v K w C X _ _ h1.length_eq]
  rfl

/-- The iterated sums of a slice that is transformed: as many as `n_iterated_sums` says, each the composition of the iterated
sums with the numbers of its tuple. -/
theorem iterated_ok {K : Sem R P I W S V} (hC : K.CountsRight) {w : World R P I W S} {n s : ℕ} {C X : Data R} {B : List (List V)}
    (h : (sliceTransform K w n s C X).1 = .ok B) :
    ∃ ns, sliceCounts K w s = .ok ns ∧
      ((iterateIss K C ((w.slice s).iss.map w.issAt) (prepared K w C X s)).1.map some =
        (tuples ns).map fun t => composed K C ((w.slice s).iss.map w.issAt) t (prepared K w C X s)) := by
  unfold sliceTransform at h
  by_cases hf : (w.slice s).fitted = true
  swap
  · rw [if_neg hf] at h; simp at h
  rw [if_pos hf] at h
  rcases hp : transformPreps K w n C (w.slice s).preps X with ⟨e | Y, tr⟩
  · rw [hp] at h; simp at h
  rw [hp] at h
  simp only at h
  have hY : Y = prepared K w C X s := (transformPreps_ok _ _ _ _ hp).1
  subst hY
  unfold transformSieve at h
  rcases hN : sliceN K w s with e | N
  · rw [hN] at h; simp at h
  have hcnt : ∃ ns, sliceCounts K w s = .ok ns := by
    unfold sliceN at hN
    rcases hc : sliceCount K w s with e | cnt
    · rw [hc] at hN; simp at hN
    · obtain ⟨ns, hns, _⟩ := sliceCount_eq hc
      exact ⟨ns, hns⟩
  obtain ⟨ns, hns⟩ := hcnt
  refine ⟨ns, hns, ?_⟩
  rw [hN, ok_bind] at h
  rcases hz : zerosE K (prepared K w C X s).length N with e | D
  · rw [hz] at h; simp at h
  rw [hz] at h
  simp only at h
  set items := iterateIss K C ((w.slice s).iss.map w.issAt) (prepared K w C X s) with hitems
  rcases hl : itemLoop K n C (w.slice s).ext ((w.slice s).sieves.map w.sieve) items.1 items.2 0 D 0 with ⟨e | A', tr2⟩
  · rw [hl] at h; simp at h
  have hnone : items.2 = none := by
    have : ∀ (its : List (List (List R))) (e : Option Err) (i : ℕ) (D : List (List V)) (k : ℤ) (B : List (List V)) t,
        itemLoop K n C (w.slice s).ext ((w.slice s).sieves.map w.sieve) its e i D k = (.ok B, t) → e = none := by
      intro its
      induction its with
      | nil => intro e i D k B t h; rcases e with _ | e; rfl; simp [itemLoop] at h
      | cons it its ih =>
        intro e i D k B t h
        rw [itemLoop] at h
        rcases hsf : sievesFor (w.slice s).ext ((w.slice s).sieves.map w.sieve) i with e' | row
        · rw [hsf] at h; simp at h
        · rw [hsf] at h
          simp only at h
          rcases hsl : sieveLoop K n C it row D k with ⟨_ | ⟨D1, k1⟩, tr1⟩
          · rw [hsl] at h; simp at h
          · rw [hsl] at h
            simp only [Prod.mk.injEq] at h
            exact ih e _ _ _ B _ (Prod.ext h.1 rfl)
    exact this _ _ _ _ _ _ _ hl
  exact (C74_chain K hC C _ _ items.1 (Prod.ext (rfl : items.1 = _) hnone) ns hns).1

/-! ### C128: plots -/

theorem forall₂_left {α β : Type} {Q : α → β → Prop} {l : List α} {l' : List β} (h : List.Forall₂ Q l l') {x : α} (hx : x ∈ l) : ∃ y, Q x y := by
  induction h with
  | nil => simp at hx
  | cons hab _ ih =>
    rcases List.mem_cons.1 hx with rfl | hx
    · exact ⟨_, hab⟩
    · exact ih hx

theorem mapM_ok_of {α β : Type} {f : α → Except Err β} : ∀ {l : List α}, (∀ x ∈ l, ∃ y, f x = .ok y) → ∃ ys, l.mapM f = .ok ys
  | [], _ => ⟨[], rfl⟩
  | x :: l, h => by
    obtain ⟨y, hy⟩ := h x (by simp)
    obtain ⟨ys, hys⟩ := mapM_ok_of (l := l) fun z hz => h z (by simp [hz])
    exact ⟨y :: ys, by rw [List.mapM_cons, hy, hys]; rfl⟩

/-- The places at the level `iterated sums` and the iterated sums of the fruit correspond. -/
theorem itemPaths_items {K : Sem R P I W S V} {w : World R P I W S} {f : ℕ} {cnt : ℕ → ℕ}
    (hcnt : ∀ s ∈ (w.fruit f).slices, sliceCount K w s = .ok (cnt s)) {its : List (ℕ × List ℕ)} (hits : items K w f = .ok its) :
    List.Forall₂ (fun p c => ∃ i j, p = [i, j] ∧ (w.fruit f).slices[i]? = some c.1 ∧
      ∃ ns, sliceCounts K w c.1 = .ok ns ∧ (tuples ns)[j]? = some c.2) (itemPaths w f cnt) its := by
  unfold items at hits
  rcases hm : (w.fruit f).slices.mapM (sliceItems K w) with e | css
  · rw [hm] at hits; simp at hits
  rw [hm, ok_bind] at hits
  have hits : css.flatten = its := Except.ok.inj hits
  rw [← hits, itemPaths, ← zipIdx_consAll _ fun s => consAll (cnt s) fun _ => [[]]]
  have key : ∀ (ss : List ℕ) (o : ℕ) (css : List (List (ℕ × List ℕ))), (∀ s ∈ ss, sliceCount K w s = .ok (cnt s)) →
      (∀ k s, ss[k]? = some s → (w.fruit f).slices[o + k]? = some s) → ss.mapM (sliceItems K w) = .ok css →
      List.Forall₂ (fun p c => ∃ i j, p = [i, j] ∧ (w.fruit f).slices[i]? = some c.1 ∧
        ∃ ns, sliceCounts K w c.1 = .ok ns ∧ (tuples ns)[j]? = some c.2)
        ((ss.zipIdx o).flatMap fun p => (consAll (cnt p.1) fun _ => [[]]).map (p.2 :: ·)) css.flatten := by
    intro ss
    induction ss with
    | nil =>
      intro o css _ _ h
      simp only [List.mapM_nil] at h
      cases h
      simp
    | cons s ss ih =>
      intro o css hc ho h
      obtain ⟨cs, css', h1, h2, rfl⟩ := mapM_cons_ok h
      rw [List.zipIdx_cons, List.flatMap_cons, List.flatten_cons]
      refine List.rel_append ?_ (ih (o + 1) css' (fun t ht => hc t (by simp [ht])) (fun k t hk => ?_) h2)
      · unfold sliceItems at h1
        rcases hns : sliceCounts K w s with e | ns
        · rw [hns] at h1; simp at h1
        rw [hns, ok_bind] at h1
        have h1 := Except.ok.inj h1
        have hprod : ns.prod = cnt s := by
          have := hc s (by simp)
          unfold sliceCounts at hns
          rw [mapM_map] at hns
          unfold sliceCount at this
          rw [hns] at this
          exact Except.ok.inj this
        have hslice : (w.fruit f).slices[o]? = some s := by simpa using ho 0 s (by simp)
        rw [← h1, consAll_map, ← hprod, ← tuples_length]
        have htup : tuples ns = (List.range (tuples ns).length).map fun j => (tuples ns).getD j [] := by
          apply List.ext_getElem
          · simp
          · intro j h1 h2; simp [h1]
        conv => arg 3; rw [htup, List.map_map]
        have hl : ((List.range (tuples ns).length).flatMap fun j => ([[]] : List (List ℕ)).map fun p => o :: j :: p) =
            (List.range (tuples ns).length).map fun j => [o, j] := by
          induction List.range (tuples ns).length with
          | nil => rfl
          | cons a l ih => rw [List.flatMap_cons, ih]; rfl
        rw [hl, List.forall₂_map_left_iff, List.forall₂_map_right_iff, List.forall₂_same]
        intro j hj
        have hj : j < (tuples ns).length := List.mem_range.1 hj
        exact ⟨o, j, rfl, hslice, ns, hns, by simp [hj]⟩
      · have := ho (k + 1) t (by simpa using hk)
        rw [show o + 1 + k = o + (k + 1) by omega]; exact this
  exact key _ 0 css hcnt (fun k s h => by simpa using h) hm

/-- A `transform_all` without postprocessing that returns: the fruit was fitted on the training set, the features of both sets are stored,
and the callback has seen the transformation of the test set. -/
theorem transformAll_ok {K : Sem R P I W S V} {ρ : ℕ → Rng R} {p i v : Bool} {a a' : Analyser R V} {w w' : World R P I W S}
    (h : transformAll K ρ none p i v a w = (.ok (), a', w')) :
    fruitFit K ρ a.fruit a.Xtrain a.Xtrain w = (.ok (), w') ∧
    ∃ F G tr c, (fruitTransform K w' 0 a.fruit a.Xtrain a.Xtrain).1 = .ok F ∧ fruitTransform K w' 1 a.fruit a.Xtest a.Xtest = (.ok G, tr) ∧
      (Saved.new p i v).after (seenBy 0 tr) = .ok c ∧
      a' = { a with saved := some c, trainFeat := some F, testFeat := some G, extracted := true } := by
  unfold transformAll at h
  dsimp only at h
  rcases hfit : fruitFit K ρ a.fruit a.Xtrain a.Xtrain w with ⟨e | u, w1⟩
  · rw [hfit] at h; simp at h
  rw [hfit] at h
  dsimp only at h
  rcases hF : (fruitTransform K w1 0 a.fruit a.Xtrain a.Xtrain).1 with e | F
  · rw [hF] at h; simp at h
  rw [hF] at h
  dsimp only [runPost] at h
  rcases hG : fruitTransform K w1 1 a.fruit a.Xtest a.Xtest with ⟨r, tr⟩
  rw [hG] at h
  dsimp only at h
  rcases hc : (Saved.new p i v : Saved R V).after ((tr.filter fun p => p.1 = 0).map Prod.snd) with e | c
  · rw [hc] at h; simp at h
  rw [hc] at h
  dsimp only at h
  rcases r with e | G
  · simp at h
  dsimp only at h
  simp only [Prod.mk.injEq, true_and] at h
  obtain ⟨rfl, rfl⟩ := h
  exact ⟨rfl, F, G, tr, c, hF, hG, hc, rfl⟩

theorem pyAt_of {α : Type} {l : List α} {k : ℕ} {x : α} (h : l[k]? = some x) : pyAt l (k : ℤ) = .ok x := by
  unfold pyAt; simp [h]

/-- `transform_all` fits the fruit: one more call in the history. -/
theorem fit_hist {K : Sem R P I W S V} {ρ : ℕ → Rng R} {w₀ w w' : World R P I W S} {ops : List (Op R P I W S)} (hist : Hist K ρ w₀ ops w) (h0 : w₀.Empty)
    {f : ℕ} {X : Data R} (hf : f < w.nFruit) (hfit : fruitFit K ρ f X X w = (.ok (), w')) :
    Hist K ρ w₀ (ops ++ [.fruitFit f none X]) w' ∧ f < w'.nFruit := by
  have he : (step K ρ (.fruitFit f none X) w).2 = w' := by
    show (fruitFit K ρ f X X w).2 = w'
    rw [hfit]
  have hh := hist.snoc (.fruitFit f none X) hf
  have hg := (step_steps K ρ (.fruitFit f none X) w hf (hist.wf (World.WF.empty h0))).grows.fruit
  rw [he] at hh hg
  exact ⟨hh, by omega⟩

theorem counts_ok {K : Sem R P I W S V} {w : World R P I W S} {s : ℕ} {ns : List ℕ} (h : sliceCounts K w s = .ok ns) : sliceCount K w s = .ok ns.prod := by
  unfold sliceCounts at h
  rw [mapM_map] at h
  unfold sliceCount
  rw [h]; rfl

/-- **C128**, iterated sums.  After `transform_all(save_iterated=True)`, `plot("iterated sums", index=k)` draws the `k`-th iterated
sum of the fruit, computed from the test set with the fitted preparateurs and ISS, and its title is the label of exactly this iterated sum.
Behind the last one `ValueError` is raised. -/
theorem C128_iterated_sums_partial {K : Sem R P I W S V} (hK : K.KeepsRows) (hC : K.CountsRight) (hN : K.KeepsN) {ρ : ℕ → Rng R}
    {w₀ w w' : World R P I W S} {ops : List (Op R P I W S)} (hist : Hist K ρ w₀ ops w) (h0 : w₀.Empty) {p v : Bool} {a a' : Analyser R V}
    (hf : a.fruit < w.nFruit) (h : transformAll K ρ none p true v a w = (.ok (), a', w'))
    (hpos : ∀ s ∈ (w'.fruit a.fruit).slices, ∀ x ∈ (w'.slice s).sieves, 0 ≤ K.sieveN (w'.sieve x)) (dim : ℕ) :
    ∃ its, items K w' a.fruit = .ok its ∧
      (∀ (k : ℕ) (hk : k < its.length), ∃ Y, plotData K w' .iterated (some (k : ℤ)) dim a' = .ok Y ∧
        composed K a.Xtest ((w'.slice its[k].1).iss.map w'.issAt) its[k].2 (prepared K w' a.Xtest a.Xtest its[k].1) = some Y ∧
        plotTitle K w' .iterated (some (k : ℤ)) a' = itemLabel K w' true its[k]) ∧
      ∀ k : ℕ, its.length ≤ k → plotData K w' .iterated (some (k : ℤ)) dim a' = .error .valueError := by
  obtain ⟨hfit, F, G, tr, c, hF, hG, hc, rfl⟩ := transformAll_ok h
  obtain ⟨hist', hf'⟩ := fit_hist hist h0 hf hfit
  have hwf := hist'.wf (World.WF.empty h0)
  obtain ⟨c', hc', _, hit, As, hAs, _⟩ := C127_saved hK hC hN hist' h0 hf' hpos rfl hG (j := 0) (by omega) p true v
  rw [hc] at hc'
  obtain rfl : c = c' := Except.ok.inj hc'
  have hfitted := fruitTransform_fitted hG
  have hiss : ∀ s ∈ (w'.fruit a.fruit).slices, (w'.slice s).iss ≠ [] := fun s hs =>
    IssInv.hist hist' h0 s (hwf.slices _ hf' s hs) (hfitted.2 s hs)
  have hsum : ∀ s ∈ (w'.fruit a.fruit).slices, ∃ ns, sliceCounts K w' s = .ok ns ∧
      ((iterateIss K a.Xtest ((w'.slice s).iss.map w'.issAt) (prepared K w' a.Xtest a.Xtest s)).1.map some =
        (tuples ns).map fun t => composed K a.Xtest ((w'.slice s).iss.map w'.issAt) t (prepared K w' a.Xtest a.Xtest s)) := by
    intro s hs
    obtain ⟨B, hB⟩ := forall₂_left hAs hs
    exact iterated_ok hC hB
  obtain ⟨cnt, hcnt⟩ : ∃ cnt : ℕ → ℕ, ∀ s ∈ (w'.fruit a.fruit).slices, sliceCount K w' s = .ok (cnt s) :=
    ⟨fun s => ((sliceCounts K w' s).toOption.getD []).prod, fun s hs => by
      obtain ⟨ns, hns, _⟩ := hsum s hs
      rw [counts_ok hns]; beta_reduce; rw [hns]; rfl⟩
  obtain ⟨its, hits⟩ : ∃ its, items K w' a.fruit = .ok its := by
    obtain ⟨css, hcss⟩ := mapM_ok_of (f := sliceItems K w') (l := (w'.fruit a.fruit).slices) fun s hs => by
      obtain ⟨ns, hns, _⟩ := hsum s hs
      exact ⟨_, by rw [sliceItems, hns]; rfl⟩
    exact ⟨css.flatten, by rw [items, hcss]; rfl⟩
  have hrel := itemPaths_items hcnt hits
  have hsplit := splitIndex_of_scan (splitIndex_iterated hiss hcnt)
  have hlab := (C75_iterated_label hiss hits true).1
  refine ⟨its, hits, fun k hk => ?_, fun k hk => ?_⟩
  · have hk' : k < (itemPaths w' a.fruit cnt).length := by rw [hrel.length_eq]; exact hk
    obtain ⟨i, j, hp, hs, ns, hns, ht⟩ := hrel.get (i := k) hk' hk
    simp only [List.get_eq_getElem] at hp hs hns ht
    have hmem : its[k].1 ∈ (w'.fruit a.fruit).slices := List.mem_of_getElem? hs
    obtain ⟨ns', hns', hcomp⟩ := hsum _ hmem
    rw [hns] at hns'
    obtain rfl := Except.ok.inj hns'
    have hj := congrArg (fun l => l[j]?) hcomp
    simp only [List.getElem?_map, ht, Option.map_some] at hj
    rcases hY : (iterateIss K a.Xtest ((w'.slice its[k].1).iss.map w'.issAt) (prepared K w' a.Xtest a.Xtest its[k].1)).1[j]? with _ | Y
    · rw [hY] at hj; simp at hj
    rw [hY, Option.map_some, Option.some.injEq] at hj
    refine ⟨Y, ?_, hj.symm, hlab k hk⟩
    show (do
      let path ← splitIndex K w' a.fruit (k : ℤ) .iterated
      let c ← attr (some c)
      let l ← savedOr c.iterated
      let row ← pyAt l ((path.getD 0 0 : ℕ) : ℤ)
      pyAt row ((path.getD 1 0 : ℕ) : ℤ)) = _
    rw [hsplit.1 k hk', hp]
    simp only [ok_bind, attr, hit, savedOr, if_true, List.getD_cons_zero, List.getD_cons_succ]
    rw [pyAt_of (x := (iterateIss K a.Xtest ((w'.slice its[k].1).iss.map w'.issAt) (prepared K w' a.Xtest a.Xtest its[k].1)).1) (by
      rw [List.getElem?_map, hs]; rfl), ok_bind, pyAt_of hY]
  · show (do
      let path ← splitIndex K w' a.fruit (k : ℤ) .iterated
      let c ← attr (some c)
      let l ← savedOr c.iterated
      let row ← pyAt l ((path.getD 0 0 : ℕ) : ℤ)
      pyAt row ((path.getD 1 0 : ℕ) : ℤ)) = _
    rw [hsplit.2 (k : ℤ) (Or.inr (by rw [hrel.length_eq]; exact_mod_cast hk))]
    rfl

end Fruits
