import Verif.Props.Corb6
import Verif.Props.Demo

/-! # `Fruitalyser.classify` over every history of calls (C130), and concrete cases for C125 to C130 -/

namespace Fruits
set_option linter.unusedSectionVars false
variable {R P I W S V : Type} [Field R] [LinearOrder R] [FloorRing R]

/-- What a user does between two calls of `classify`: any call on fruits, slices and seeds, or `transform_all` of the analyser. -/
inductive Act (R P I W S V : Type)
  | user (o : Op R P I W S)
  | extract (post : Option (Postprocess V)) (prepared iterated sieved : Bool)

/-- The action is a call of `transform_all`. -/
def Act.isExtract : Act R P I W S V → Bool
  | .user _ => false
  | .extract .. => true

/-- The effect of an action: whether it returned, and the analyser and the objects afterwards. -/
def actStep (K : Sem R P I W S V) (ρ : ℕ → Rng R) (x : Act R P I W S V) (a : Analyser R V) (w : World R P I W S) :
    Except Err Unit × Analyser R V × World R P I W S :=
  match x with
  | .user o => ((step K ρ o w).1, a, (step K ρ o w).2)
  | .extract post p i v => transformAll K ρ post p i v a w

/-- Histories of an analyser: the log has the actions and whether they returned. -/
inductive AHist (K : Sem R P I W S V) (ρ : ℕ → Rng R) (a₀ : Analyser R V) (w₀ : World R P I W S) :
    List (Act R P I W S V × Except Err Unit) → Analyser R V → World R P I W S → Prop
  | nil : AHist K ρ a₀ w₀ [] a₀ w₀
  | snoc {log : List (Act R P I W S V × Except Err Unit)} {a : Analyser R V} {w : World R P I W S} (x : Act R P I W S V) :
      AHist K ρ a₀ w₀ log a w →
      AHist K ρ a₀ w₀ (log ++ [(x, (actStep K ρ x a w).1)]) (actStep K ρ x a w).2.1 (actStep K ρ x a w).2.2

/-- A new analyser: `Fruitalyser(fruit, X_train, y_train, X_test, y_test)`. -/
def Analyser.IsNew (a : Analyser R V) : Prop := a.extracted = false ∧ a.trainFeat = none ∧ a.testFeat = none ∧ a.saved = none

/-- `transform_all` never changes the fruit and the data of the analyser. -/
theorem transformAll_data (K : Sem R P I W S V) (ρ : ℕ → Rng R) (post : Option (Postprocess V)) (p i v : Bool) (a : Analyser R V) (w : World R P I W S) :
    ∃ tr te s x, (transformAll K ρ post p i v a w).2.1 = { a with trainFeat := tr, testFeat := te, saved := s, extracted := x } := by
  unfold transformAll
  dsimp only
  rcases fruitFit K ρ a.fruit a.Xtrain a.Xtrain w with ⟨e | u, w1⟩ <;> dsimp only
  · exact ⟨_, _, _, _, rfl⟩
  rcases (fruitTransform K w1 0 a.fruit a.Xtrain a.Xtrain).1 with e | F <;> dsimp only
  · exact ⟨_, _, _, _, rfl⟩
  rcases runPost post F with e | ⟨F', q⟩ <;> dsimp only
  · exact ⟨_, _, _, _, rfl⟩
  rcases (Saved.new p i v : Saved R V).after _ with e | c <;> dsimp only
  · exact ⟨_, _, _, _, rfl⟩
  rcases (fruitTransform K w1 1 a.fruit a.Xtest a.Xtest).1 with e | G <;> dsimp only
  · exact ⟨_, _, _, _, rfl⟩
  rcases q G with e | G' <;> dsimp only
  · exact ⟨_, _, _, _, rfl⟩
  exact ⟨_, _, _, _, rfl⟩

theorem actStep_data (K : Sem R P I W S V) (ρ : ℕ → Rng R) (x : Act R P I W S V) (a : Analyser R V) (w : World R P I W S) :
    ∃ tr te s y, (actStep K ρ x a w).2.1 = { a with trainFeat := tr, testFeat := te, saved := s, extracted := y } := by
  cases x with
  | user o => exact ⟨_, _, _, _, rfl⟩
  | extract post p i v => exact transformAll_data K ρ post p i v a w

/-- Nothing changes the fruit and the data of the analyser. -/
theorem AHist.data {K : Sem R P I W S V} {ρ : ℕ → Rng R} {a₀ a : Analyser R V} {w₀ w : World R P I W S}
    {log : List (Act R P I W S V × Except Err Unit)} (h : AHist K ρ a₀ w₀ log a w) :
    a.fruit = a₀.fruit ∧ a.Xtrain = a₀.Xtrain ∧ a.ytrain = a₀.ytrain ∧ a.Xtest = a₀.Xtest ∧ a.ytest = a₀.ytest := by
  induction h with
  | nil => exact ⟨rfl, rfl, rfl, rfl, rfl⟩
  | snoc x _ ih =>
    rename_i log a w _
    obtain ⟨_, _, _, _, he⟩ := actStep_data K ρ x a w
    rw [he]; exact ih

/-- A `transform_all` that does not return leaves the mark "features extracted" as it was. -/
theorem transformAll_failed {K : Sem R P I W S V} {ρ : ℕ → Rng R} {post : Option (Postprocess V)} {p i v : Bool} {a : Analyser R V}
    {w : World R P I W S} (h : (transformAll K ρ post p i v a w).1 ≠ .ok ()) : (transformAll K ρ post p i v a w).2.1.extracted = a.extracted := by
  unfold transformAll at h ⊢
  dsimp only at h ⊢
  rcases hf : fruitFit K ρ a.fruit a.Xtrain a.Xtrain w with ⟨e | u, w1⟩ <;> rw [hf] at h <;> dsimp only at h ⊢
  rcases hF : (fruitTransform K w1 0 a.fruit a.Xtrain a.Xtrain).1 with e | F <;> rw [hF] at h <;> dsimp only at h ⊢
  rcases hq : runPost post F with e | ⟨F', q⟩ <;> rw [hq] at h <;> dsimp only at h ⊢
  rcases hs : (Saved.new p i v : Saved R V).after (((fruitTransform K w1 1 a.fruit a.Xtest a.Xtest).2.filter fun p => p.1 = 0).map Prod.snd) with e | c <;>
    rw [hs] at h <;> (try rw [hs]) <;> dsimp only at h ⊢
  rcases hG : (fruitTransform K w1 1 a.fruit a.Xtest a.Xtest).1 with e | G <;> rw [hG] at h <;> dsimp only at h ⊢
  rcases hg : q G with e | G' <;> rw [hg] at h <;> dsimp only at h ⊢
  exact absurd rfl h

/-- A `transform_all` that returns, with any postprocessing. -/
theorem transformAll_returned {K : Sem R P I W S V} {ρ : ℕ → Rng R} {post : Option (Postprocess V)} {p i v : Bool} {a : Analyser R V}
    {w : World R P I W S} (h : (transformAll K ρ post p i v a w).1 = .ok ()) :
    ∃ w' F F' q G G', fruitFit K ρ a.fruit a.Xtrain a.Xtrain w = (.ok (), w') ∧
      (fruitTransform K w' 0 a.fruit a.Xtrain a.Xtrain).1 = .ok F ∧ (fruitTransform K w' 1 a.fruit a.Xtest a.Xtest).1 = .ok G ∧
      runPost post F = .ok (F', q) ∧ q G = .ok G' ∧ (transformAll K ρ post p i v a w).2.2 = w' ∧
      (transformAll K ρ post p i v a w).2.1.extracted = true ∧ (transformAll K ρ post p i v a w).2.1.trainFeat = some F' ∧
      (transformAll K ρ post p i v a w).2.1.testFeat = some G' := by
  unfold transformAll at h ⊢
  dsimp only at h ⊢
  rcases hf : fruitFit K ρ a.fruit a.Xtrain a.Xtrain w with ⟨e | u, w1⟩ <;> rw [hf] at h <;> dsimp only at h ⊢
  · simp at h
  rcases hF : (fruitTransform K w1 0 a.fruit a.Xtrain a.Xtrain).1 with e | F <;> rw [hF] at h <;> dsimp only at h ⊢
  · simp at h
  rcases hq : runPost post F with e | ⟨F', q⟩ <;> rw [hq] at h <;> dsimp only at h ⊢
  · simp at h
  rcases hs : (Saved.new p i v : Saved R V).after (((fruitTransform K w1 1 a.fruit a.Xtest a.Xtest).2.filter fun p => p.1 = 0).map Prod.snd) with e | c <;>
    rw [hs] at h <;> (try rw [hs]) <;> dsimp only at h ⊢
  · simp at h
  rcases hG : (fruitTransform K w1 1 a.fruit a.Xtest a.Xtest).1 with e | G <;> rw [hG] at h <;> dsimp only at h ⊢
  · simp at h
  rcases hg : q G with e | G' <;> rw [hg] at h <;> dsimp only at h ⊢
  · simp at h
  exact ⟨w1, F, F', q, G, G', rfl, hF, hG, hq, hg, rfl, rfl, rfl, rfl⟩

theorem AHist.extracted {K : Sem R P I W S V} {ρ : ℕ → Rng R} {a₀ a : Analyser R V} {w₀ w : World R P I W S} (h0 : a₀.IsNew)
    {log : List (Act R P I W S V × Except Err Unit)} (h : AHist K ρ a₀ w₀ log a w)
    (hno : ∀ e ∈ log, e.1.isExtract = true → e.2 ≠ .ok ()) : a.extracted = false := by
  induction h with
  | nil => exact h0.1
  | snoc x _ ih =>
    rename_i log a w hh
    have ih := ih fun e he => hno e (by simp [he])
    cases x with
    | user o => exact ih
    | extract post p i v =>
      have := hno _ (List.mem_append_right _ (List.mem_singleton.2 rfl)) rfl
      exact (transformAll_failed this).trans ih

theorem selectCols_ok {F : List (List V)} {is : List ℕ} (h : ∀ r ∈ F, ∀ i ∈ is, i < r.length) :
    selectCols F (is.map (Nat.cast : ℕ → ℤ)) = .ok (F.map fun r => is.filterMap fun i => r[i]?) := by
  have one : ∀ (r : List V) (is : List ℕ), (∀ i ∈ is, i < r.length) →
      (is.map (Nat.cast : ℕ → ℤ)).mapM (pyAt r) = .ok (is.filterMap fun i => r[i]?) := by
    intro r is
    induction is with
    | nil => exact fun _ => rfl
    | cons i is ih =>
      intro hi
      have hx : r[i]? = some (r[i]'(hi i (by simp))) := List.getElem?_eq_getElem _
      rw [List.map_cons, List.mapM_cons, pyAt_of hx, ih fun j hj => hi j (by simp [hj]), List.filterMap_cons, hx]
      rfl
  induction F with
  | nil => rfl
  | cons r F ih =>
    rw [selectCols, List.mapM_cons, one r is (h r (by simp)), ok_bind]
    have := ih fun r hr => h r (by simp [hr])
    rw [selectCols] at this
    rw [this]; rfl

/-- **C130**, what holds.  Take any history of an analyser: calls on fruits, slices and seeds and calls of `transform_all`, returning or not.
As long as no `transform_all` has returned, `classify` raises a `RuntimeError`.  If the last `transform_all` returned, `classify`
trains the classifier on the features of the training set and scores it on the features of the test set, both computed by the fruit as
that call fitted it on the training set (and postprocessed as fitted on the training features); what the user does with the fruit afterwards
does not matter.  With `indices` the same is done for these columns of both. -/
theorem C130_classify_partial {K : Sem R P I W S V} {ρ : ℕ → Rng R} {a₀ a : Analyser R V} {w₀ w : World R P I W S} (h0 : a₀.IsNew)
    {log : List (Act R P I W S V × Except Err Unit)} (h : AHist K ρ a₀ w₀ log a w) :
    ((∀ e ∈ log, e.1.isExtract = true → e.2 ≠ .ok ()) → ∀ clf indices, classify (R := R) clf indices a = .error .runtimeError) ∧
    ∀ {log₁ log₂ post p i v}, log = log₁ ++ (.extract post p i v, .ok ()) :: log₂ → (∀ e ∈ log₂, e.1.isExtract = false) →
      ∃ a₁ w₁ w' F F' q G G', AHist K ρ a₀ w₀ log₁ a₁ w₁ ∧ fruitFit K ρ a₀.fruit a₀.Xtrain a₀.Xtrain w₁ = (.ok (), w') ∧
        (fruitTransform K w' 0 a₀.fruit a₀.Xtrain a₀.Xtrain).1 = .ok F ∧ (fruitTransform K w' 1 a₀.fruit a₀.Xtest a₀.Xtest).1 = .ok G ∧
        (match post with | none => F' = F ∧ q = Except.ok | some fitTransform => fitTransform F = .ok (F', q)) ∧ q G = .ok G' ∧
        (∀ clf : List (List V) → List ℤ → List (List V) → List ℤ → Except Err R, classify clf none a = clf F' a₀.ytrain G' a₀.ytest) ∧
        ∀ (clf : List (List V) → List ℤ → List (List V) → List ℤ → Except Err R) (is : List ℕ), (∀ r ∈ F' ++ G', ∀ i ∈ is, i < r.length) →
          classify clf (some (is.map (Nat.cast : ℕ → ℤ))) a =
            clf (F'.map fun r => is.filterMap fun i => r[i]?) a₀.ytrain (G'.map fun r => is.filterMap fun i => r[i]?) a₀.ytest := by
  refine ⟨fun hno clf indices => ?_, ?_⟩
  · unfold classify
    rw [h.extracted h0 hno]; rfl
  · intro log₁ log₂ post p i v hlog hno
    have key : ∃ a₁ w₁ w' F F' q G G', AHist K ρ a₀ w₀ log₁ a₁ w₁ ∧ fruitFit K ρ a₀.fruit a₀.Xtrain a₀.Xtrain w₁ = (.ok (), w') ∧
        (fruitTransform K w' 0 a₀.fruit a₀.Xtrain a₀.Xtrain).1 = .ok F ∧ (fruitTransform K w' 1 a₀.fruit a₀.Xtest a₀.Xtest).1 = .ok G ∧
        runPost post F = .ok (F', q) ∧ q G = .ok G' ∧ a.extracted = true ∧ a.trainFeat = some F' ∧ a.testFeat = some G' := by
      induction h generalizing log₂ with
      | nil => simp at hlog
      | snoc x hh ih =>
        rename_i log' a' w'
        rcases List.eq_nil_or_concat log₂ with rfl | ⟨l, e, rfl⟩
        · obtain ⟨rfl, he⟩ := List.append_inj' hlog rfl
          rw [List.cons.injEq, Prod.mk.injEq] at he
          obtain ⟨⟨rfl, hok⟩, -⟩ := he
          obtain ⟨w2, F, F', q, G, G', h1, h2, h3, h4, h5, h6, h7, h8, h9⟩ := transformAll_returned hok
          obtain ⟨d1, d2, d3, d4, d5⟩ := hh.data
          rw [d1, d2] at h1 h2
          rw [d1, d4] at h3
          exact ⟨a', w', w2, F, F', q, G, G', hh, h1, h2, h3, h4, h5, h7, h8, h9⟩
        · rw [List.concat_eq_append, ← List.cons_append, ← List.append_assoc] at hlog
          obtain ⟨rfl, he⟩ := List.append_inj' hlog rfl
          obtain rfl := List.singleton_inj.1 he
          have := ih rfl fun e he => hno e (by simp [he])
          have hx := hno (x, (actStep K ρ x a' w').1) (by simp)
          cases x with
          | user o => exact this
          | extract => simp [Act.isExtract] at hx
    obtain ⟨a₁, w₁, w', F, F', q, G, G', h1, h2, h3, h4, h5, h6, h7, h8, h9⟩ := key
    obtain ⟨d1, d2, d3, d4, d5⟩ := h.data
    have hcl : ∀ (clf : List (List V) → List ℤ → List (List V) → List ℤ → Except Err R) indices, classify clf indices a =
        (match indices with
          | none => clf F' a₀.ytrain G' a₀.ytest
          | some is => do
            let F' ← selectCols F' is
            let G' ← selectCols G' is
            clf F' a₀.ytrain G' a₀.ytest) := by
      intro clf indices
      unfold classify
      rw [h7, h8, h9, d3, d5, if_pos rfl]
      rfl
    refine ⟨a₁, w₁, w', F, F', q, G, G', h1, h2, h3, h4, ?_, h6, fun clf => hcl clf none, fun clf is his => ?_⟩
    · cases post with
      | none =>
        have := Except.ok.inj h5
        rw [Prod.mk.injEq] at this
        exact ⟨this.1.symm, this.2.symm⟩
      | some f => exact h5
    · rw [hcl]
      dsimp only
      rw [selectCols_ok fun r hr => his r (by simp [hr]), selectCols_ok fun r hr => his r (by simp [hr])]
      rfl

/-! ### Concrete cases -/

namespace Demo

/-- The world of `Demo` before its first fit: a fruit with one slice. -/
def wOne : DWorld := runOps K rng (ops.take 7) w0

/-- A new analyser of fruit 0. -/
def an : Analyser ℚ ℚ := ⟨0, X, [1, 2], X, [1, 2], false, none, none, none⟩

/-- `transform_all` with everything saved, on the fruit with two slices. -/
def ext : Except Err Unit × Analyser ℚ ℚ × DWorld := transformAll K rng none true true true an w

theorem ext_ok : ext.1 = .ok () := by decide +kernel

theorem ext_eq : transformAll K rng none true true true an w = (.ok (), ext.2.1, ext.2.2) := Prod.ext ext_ok rfl

theorem ext_positive : ∀ s ∈ (ext.2.2.fruit 0).slices, ∀ a ∈ (ext.2.2.slice s).sieves, 0 ≤ K.sieveN (ext.2.2.sieve a) := by decide +kernel

/-- The places of the iterated sums and features of the fruit with two slices (C126): two words in each slice, two sieves and one. -/
example : (List.range 7).map (fun k => (splitIndex K w 0 k .features).toOption) =
      [some [0, 0, 0, 0], some [0, 0, 1, 0], some [0, 1, 0, 0], some [0, 1, 1, 0], some [1, 0, 0, 0], some [1, 1, 0, 0], none] ∧
    (List.range 5).map (fun k => (splitIndex K w 0 k .iterated).toOption) = [some [0, 0], some [0, 1], some [1, 0], some [1, 1], none] ∧
    (List.range 3).map (fun k => (splitIndex K w 0 k .prepared).toOption) = [some [0], some [1], none] := by decide +kernel

/-- The hypotheses of `C126_features` and `C126_iterated_sums`. -/
example : (∀ s ∈ (w.fruit 0).slices, (w.slice s).iss ≠ []) ∧ ∀ s ∈ (w.fruit 0).slices, sliceCount K w s = .ok 2 := by decide +kernel

/-- **C126** needs a seed of this kind in every slice: for a slice without one `split_index` raises a `TypeError`
(`range(np.prod([]))`), also for indices of slices that have one, if they come later. -/
theorem C126_no_iss : splitIndex K (runOps K rng [.newSieve endSieve, .newFruit [], .fruitAdd 0 [.sieve 0]] w0) 0 0 .features = .error .typeError := by
  decide +kernel

/-- **C125**, the documented claim is false.  The fruit has two slices, and slice 1 has no preparateurs, so `label(1, "prepared")` should say
so; it raises. -/
theorem C125_false : (w.fruit 0).slices.length = 2 ∧ fruitLabel K w true .prepared 0 0 = .ok "INC".toList ∧
    fruitLabel K w true .prepared 0 1 = .error .indexError := by decide +kernel

/-- A fruit with the slices `[INC, LAG | …]` and `[INC | …]`. -/
def opsTwo : List DOp :=
  [.newPrep incPrep, .newPrep ⟨.lag, trivial⟩, .newWords wordList, .newIss issSingle 0, .newSieve endSieve, .newFruit [],
    .fruitAdd 0 [.prep 0, .prep 1, .iss 0, .sieve 0], .cut 0 none, .fruitAdd 0 [.prep 0, .iss 0, .sieve 0]]

/-- The world with this fruit. -/
def wTwo : DWorld := runOps K rng opsTwo w0

/-- Here `label(0, "prepared")` leaves out a preparateur of slice 0, and `label(1, "prepared")` is about slice 0. -/
theorem C125_wrong_slice : (wTwo.fruit 0).slices = [0, 1] ∧ (wTwo.slice 0).preps = [0, 1] ∧ (wTwo.slice 1).preps = [0] ∧
    fruitLabel K wTwo true .prepared 0 0 = .ok "INC".toList ∧ fruitLabel K wTwo true .prepared 0 1 = .ok "INC -> LAG".toList := by
  decide +kernel

/-- **C128**, the documented claim is false: `plot("prepared", 1)` draws the data prepared by slice 1, but its title names the
preparateurs of slice 0. -/
theorem C128_wrong_title : ∃ a' w', transformAll K rng none true false false an wTwo = (.ok (), a', w') ∧
    plot K w' .prepared (some 1) 0 false false 1 false a' = .ok ([⟨none, [1, 1, 2], none⟩], "INC -> LAG".toList) ∧
    (prepared K w' X X 1).map (fun Z => Z.getD 0 []) = [[1, 1, 2], [0, 1, -1]] := by
  refine ⟨(transformAll K rng none true false false an wTwo).2.1, (transformAll K rng none true false false an wTwo).2.2, ?_, ?_, ?_⟩
  · exact Prod.ext (by decide +kernel) rfl
  · decide +kernel
  · decide +kernel

/-- … and for the fruit of `Demo` it raises although the data are there. -/
theorem C128_raises : (plotData K ext.2.2 .prepared (some 1) 0 ext.2.1).toOption = some [[1, 2, 4], [0, 1, 0]] ∧
    plot K ext.2.2 .prepared (some 1) 0 false false 1 false ext.2.1 = .error .indexError := by decide +kernel

/-- C127 for the call of `Demo`: two slices, two iterated sums each. -/
example : ∃ c, (Saved.new true true true).after (seenBy 0 (fruitTransform K w 2 0 X X).2) = .ok c ∧
    c.prepared = some ((w.fruit 0).slices.map (prepared K w X X)) := by
  obtain ⟨c, h1, h2, _⟩ := C127_saved (builtin_keepsRows lib) (builtin_countsRight lib) (builtin_keepsN lib) hist w0_empty (by decide +kernel) positive
    rfl transform_eq (j := 0) (by decide) true true true
  exact ⟨c, h1, h2⟩

/-- C128 for the analyser of `Demo`. -/
example : ∃ its, items K ext.2.2 0 = .ok its ∧
    (∀ (k : ℕ) (hk : k < its.length), ∃ Y, plotData K ext.2.2 .iterated (some (k : ℤ)) 0 ext.2.1 = .ok Y ∧
      composed K X ((ext.2.2.slice its[k].1).iss.map ext.2.2.issAt) its[k].2 (prepared K ext.2.2 X X its[k].1) = some Y ∧
      plotTitle K ext.2.2 .iterated (some (k : ℤ)) ext.2.1 = itemLabel K ext.2.2 true its[k]) ∧
    ∀ k : ℕ, its.length ≤ k → plotData K ext.2.2 .iterated (some (k : ℤ)) 0 ext.2.1 = .error .valueError :=
  C128_iterated_sums_partial (builtin_keepsRows lib) (builtin_countsRight lib) (builtin_keepsN lib) hist w0_empty (a := an) (by decide +kernel) ext_eq ext_positive 0

/-- C128 for prepared data. -/
example : plotData K ext.2.2 .prepared (some ((0 : ℕ) : ℤ)) 0 ext.2.1 = (prepared K ext.2.2 X X 0).mapM fun Z => pyAt Z ((0 : ℕ) : ℤ) :=
  C128_prepared_partial (builtin_keepsRows lib) (builtin_countsRight lib) (builtin_keepsN lib) hist w0_empty (a := an) (by decide +kernel) ext_eq ext_positive 0
    (by decide +kernel)

/-- C129: the table of two columns of both sets. -/
example : featureTable K ext.2.2 (some [1, 4]) .all ext.2.1 =
    .ok [("INC | [1] | END!-1![, ]".toList, [4, 0, 4, 0]), ("[1] | END!-1![, ]".toList, [7, 1, 7, 1])] := by decide +kernel

/-- The hypotheses of `C129_features`. -/
example (source : Source) := C129_features (builtin_keepsRows lib) (builtin_countsRight lib) (builtin_keepsN lib) hist w0_empty (a := an)
  (by decide +kernel) ext_eq ext_positive (by decide) (by decide) source

/-- A history of an analyser: `transform_all` on the fruit with one slice returns; then the fruit gets a second slice, and `transform_all`
is called again with a postprocessing that cannot be fitted (a `PCA` with more components than features). -/
def acts : List (Act ℚ (SafePrep ℚ) (BIss ℚ) (List (IWord ℚ)) (SafeSieve ℚ) ℚ) :=
  [.extract none false false false, .user (.cut 0 none), .user (.fruitAdd 0 [.iss 0, .sieve 1]),
    .extract (some fun _ => .error .valueError) false false false]

/-- Runs actions. -/
def runActs : List (Act ℚ (SafePrep ℚ) (BIss ℚ) (List (IWord ℚ)) (SafeSieve ℚ) ℚ) → Analyser ℚ ℚ → DWorld →
    List (Except Err Unit) × Analyser ℚ ℚ × DWorld
  | [], a, w => ([], a, w)
  | x :: xs, a, w =>
    let r := actStep K rng x a w
    let s := runActs xs r.2.1 r.2.2
    (r.1 :: s.1, s.2)

theorem runActs_hist : ∀ (xs : List (Act ℚ (SafePrep ℚ) (BIss ℚ) (List (IWord ℚ)) (SafeSieve ℚ) ℚ)) {a₀ a : Analyser ℚ ℚ} {w₀ w : DWorld}
    {log : List (Act ℚ (SafePrep ℚ) (BIss ℚ) (List (IWord ℚ)) (SafeSieve ℚ) ℚ × Except Err Unit)}, AHist K rng a₀ w₀ log a w →
    AHist K rng a₀ w₀ (log ++ xs.zip (runActs xs a w).1) (runActs xs a w).2.1 (runActs xs a w).2.2
  | [], _, _, _, _, _, h => by simpa [runActs] using h
  | x :: xs, _, _, _, _, _, h => by
    have := runActs_hist xs (h.snoc x)
    rw [List.append_assoc] at this
    exact this

/-- `C130_classify_partial` applies after the first three actions: the classifier gets four features of both sets. -/
example : ∃ a w, AHist K rng an wOne ((acts.take 3).zip [.ok (), .ok (), .ok ()]) a w ∧
    classify (fun F y G z => .ok (((F ++ G).map fun r : List ℚ => (r.length : ℚ)).sum + y.length + z.length)) none a = .ok (20 : ℚ) := by
  refine ⟨(runActs (acts.take 3) an wOne).2.1, (runActs (acts.take 3) an wOne).2.2, ?_, by decide +kernel⟩
  have h := runActs_hist (acts.take 3) (AHist.nil (K := K) (ρ := rng) (a₀ := an) (w₀ := wOne))
  have he : (runActs (acts.take 3) an wOne).1 = [.ok (), .ok (), .ok ()] := by decide +kernel
  rw [he] at h
  exact h

example : an.IsNew := ⟨rfl, rfl, rfl, rfl⟩

/-- **C130**, the general claim is false.  The second `transform_all` raises; `classify` does not, and trains the classifier on the
features of the second fit (six columns) to score it on those of the first (four columns). -/
theorem C130_mixed_fits : ∃ a w, AHist K rng an wOne (acts.zip [.ok (), .ok (), .ok (), .error .valueError]) a w ∧
    ∃ F G : List (List ℚ), (∀ clf : List (List ℚ) → List ℤ → List (List ℚ) → List ℤ → Except Err ℚ,
      classify clf none a = clf F [1, 2] G [1, 2]) ∧ F.map List.length = [6, 6] ∧ G.map List.length = [4, 4] := by
  refine ⟨(runActs acts an wOne).2.1, (runActs acts an wOne).2.2, ?_, ?_⟩
  · have h := runActs_hist acts (AHist.nil (K := K) (ρ := rng) (a₀ := an) (w₀ := wOne))
    have he : (runActs acts an wOne).1 = [.ok (), .ok (), .ok (), .error .valueError] := by decide +kernel
    rw [he] at h
    exact h
  · have h1 : (runActs acts an wOne).2.1.extracted = true := by decide +kernel
    have h2 : (runActs acts an wOne).2.1.trainFeat = some [[2/3, 4, 2/3, 5, 7, 14], [0, 0, 0, -1, 1, 0]] := by decide +kernel
    have h3 : (runActs acts an wOne).2.1.testFeat.map (List.map List.length) = some [4, 4] := by decide +kernel
    have h4 : (runActs acts an wOne).2.1.ytrain = [1, 2] ∧ (runActs acts an wOne).2.1.ytest = [1, 2] := by decide +kernel
    obtain ⟨G, hG, hG'⟩ := Option.map_eq_some_iff.1 h3
    refine ⟨[[2/3, 4, 2/3, 5, 7, 14], [0, 0, 0, -1, 1, 0]], G, fun clf => ?_, ?_, hG'⟩
    · unfold classify
      rw [h1, h2, hG, h4.1, h4.2]
      rfl
    · rfl

end Demo

end Fruits
