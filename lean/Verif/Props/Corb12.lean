import Verif.Props.Corb11

/-! # C139, C140: `fruitify_all` -/

namespace Fruits
set_option linter.unusedSectionVars false

variable {R P I W S V : Type} [Field R] [LinearOrder R] [IsStrictOrderedRing R] [FloorRing R]

/-- `fruitifyAll` with results at the beginning. -/
theorem fruitifyAll_gen (K : Sem R P I W S V) (ρ : ℕ → Rng R) (big : R) (clf : Classifier R V) (n : ℕ) (arg : FruitArg R P I W S) :
    ∀ (ds : List (PStr × Except FileErr (Loaded R))) (res : List (PStr × Fl R)) (w : World R P I W S),
    ∃ accs : List (Fl R), accs.length ≤ ds.length ∧
      (fruitifyAll K ρ big clf n arg ds res w).2.1 = (List.range accs.length).map (fun j => res ++ ((ds.map Prod.fst).zip accs).take (j + 1)) ∧
      (∀ (j : ℕ) (a : Fl R), accs[j]? = some a → ∃ name D u, ds[j]? = some (name, .ok D) ∧ (fruitifyCall K ρ big clf n arg D u).1 = .ok a) ∧
      ((accs.length = ds.length ∧ (fruitifyAll K ρ big clf n arg ds res w).1 = .ok (res ++ (ds.map Prod.fst).zip accs)) ∨
        (∃ name e, ds[accs.length]? = some (name, .error e) ∧ (fruitifyAll K ρ big clf n arg ds res w).1 = .error e) ∨
        ∃ name D u e, ds[accs.length]? = some (name, .ok D) ∧ (fruitifyCall K ρ big clf n arg D u).1 = .error e ∧
          (fruitifyAll K ρ big clf n arg ds res w).1 = .error (.python e))
  | [], res, w => ⟨[], by simp, by simp [fruitifyAll], by simp, Or.inl ⟨rfl, by simp [fruitifyAll]⟩⟩
  | (name, .error e) :: ds, res, w => ⟨[], by simp, by simp [fruitifyAll], by simp, Or.inr (Or.inl ⟨name, e, rfl, rfl⟩)⟩
  | (name, .ok D) :: ds, res, w => by
    rw [fruitifyAll]
    rcases hm : fruitifyCall K ρ big clf n arg D w with ⟨e | a, w'⟩
    · exact ⟨[], by simp, by simp, by simp, Or.inr (Or.inr ⟨name, D, w, e, rfl, by rw [hm], rfl⟩)⟩
    · obtain ⟨accs, h1, h2, h3, h4⟩ := fruitifyAll_gen K ρ big clf n arg ds (res ++ [(name, a)]) w'
      refine ⟨a :: accs, by simpa using h1, ?_, ?_, ?_⟩
      · simp only [h2, List.length_cons, List.range_succ_eq_map, List.map_cons, List.map_map, List.zip_cons_cons, List.take_succ_cons, List.take_zero]
        congr 1
        apply List.map_congr_left
        intro j _
        simp
      · intro j b hb
        cases j with
        | zero =>
          simp only [List.getElem?_cons_zero, Option.some.injEq] at hb
          subst hb
          exact ⟨name, D, w, rfl, by rw [hm]⟩
        | succ j =>
          obtain ⟨name', D', u, e1, e2⟩ := h3 j b (by simpa using hb)
          exact ⟨name', D', u, by simpa using e1, e2⟩
      · rcases h4 with ⟨g1, g2⟩ | ⟨name', e, g1, g2⟩ | ⟨name', D', u, e, g1, g2, g3⟩
        · exact Or.inl ⟨by simp [g1], by simp only [g2]; simp⟩
        · exact Or.inr (Or.inl ⟨name', e, by simpa using g1, g2⟩)
        · exact Or.inr (Or.inr ⟨name', D', u, e, by simpa using g1, g2, g3⟩)

/-- **C139.**  `fruitify_all` works through the datasets in order.  For some number of them, `accs.length`, it gets an accuracy, each by
`fruitify` with that dataset; after each of them the result file has the rows of exactly the datasets finished so far, in order.  Either all
datasets are finished and the table of all rows is returned, or the next dataset could not be loaded or classified and this exception is raised. -/
theorem C139_table (K : Sem R P I W S V) (ρ : ℕ → Rng R) (big : R) (clf : Classifier R V) (n : ℕ) (arg : FruitArg R P I W S)
    (ds : List (PStr × Except FileErr (Loaded R))) (w : World R P I W S) :
    ∃ accs : List (Fl R), accs.length ≤ ds.length ∧
      (fruitifyAll K ρ big clf n arg ds [] w).2.1 = (List.range accs.length).map (fun j => ((ds.map Prod.fst).zip accs).take (j + 1)) ∧
      (∀ (j : ℕ) (a : Fl R), accs[j]? = some a → ∃ name D u, ds[j]? = some (name, .ok D) ∧ (fruitifyCall K ρ big clf n arg D u).1 = .ok a) ∧
      ((accs.length = ds.length ∧ (fruitifyAll K ρ big clf n arg ds [] w).1 = .ok ((ds.map Prod.fst).zip accs)) ∨
        (∃ name e, ds[accs.length]? = some (name, .error e) ∧ (fruitifyAll K ρ big clf n arg ds [] w).1 = .error e) ∨
        ∃ name D u e, ds[accs.length]? = some (name, .ok D) ∧ (fruitifyCall K ρ big clf n arg D u).1 = .error e ∧
          (fruitifyAll K ρ big clf n arg ds [] w).1 = .error (.python e)) := by
  simpa using fruitifyAll_gen K ρ big clf n arg ds [] w

theorem call_fits {K : Sem R P I W S V} {ρ : ℕ → Rng R} (big : R) (clf : Classifier R V) (n : ℕ) {f : ℕ} (D : Loaded R) {w : World R P I W S}
    (hw : w.WF) (hf : f < w.nFruit) : OnlyFits K ρ w (fruitifyCall K ρ big clf n (.fruit f) D w).2 :=
  fruitify_fits clf n _ _ _ _ hw hf

/-- A number of the dataset and the number `fruitify` uses for it: NaN counts as 0, infinity as the largest number. -/
inductive CleanEntry (big : R) : Fl R → R → Prop
  | finite (x : R) : CleanEntry big (.finite x) x
  | nan : CleanEntry big .nan 0
  | posInf : CleanEntry big .posInf big
  | negInf : CleanEntry big .negInf (-big)

theorem forall₂_map_eq {α β : Type} {r : α → β → Prop} {f : α → β} (h : ∀ a b, r a b → f a = b) :
    ∀ {xs : List α} {ys : List β}, List.Forall₂ r xs ys → xs.map f = ys
  | _, _, .nil => rfl
  | _, _, .cons hab hl => by rw [List.map_cons, h _ _ hab, forall₂_map_eq h hl]

/-- **C139** (numbers): NaN values of the data count as 0 and infinite values as the largest number, in both sets. -/
theorem C139_numbers (K : Sem R P I W S V) (ρ : ℕ → Rng R) (big : R) (clf : Classifier R V) (n : ℕ) (f : ℕ) (D : Loaded R)
    (w : World R P I W S) {Xtrain Xtest : Data R}
    (h1 : List.Forall₂ (List.Forall₂ (List.Forall₂ (CleanEntry big))) D.Xtrain Xtrain)
    (h2 : List.Forall₂ (List.Forall₂ (List.Forall₂ (CleanEntry big))) D.Xtest Xtest) :
    fruitifyCall K ρ big clf n (.fruit f) D w = fruitify K ρ clf n f Xtrain D.ytrain Xtest D.ytest w := by
  have key : ∀ {A : Data (Fl R)} {B : Data R}, List.Forall₂ (List.Forall₂ (List.Forall₂ (CleanEntry big))) A B →
      mapEntries (numOf big) A = B := fun h => by
    refine forall₂_map_eq (fun s s' hs => forall₂_map_eq (fun x x' hx => forall₂_map_eq (fun a b hab => ?_) hx) hs) h
    cases hab <;> rfl
  unfold fruitifyCall
  rw [key h1, key h2]
  rfl

/-- Every dataset is cleaned to exactly one dataset. -/
example : List.Forall₂ (List.Forall₂ (List.Forall₂ (CleanEntry (9 : ℚ)))) [[[.finite 2, .nan], [.posInf, .negInf]]]
    [[[2, 0], [9, -9]]] :=
  .cons (.cons (.cons (.finite 2) (.cons .nan .nil)) (.cons (.cons .posInf (.cons .negInf .nil)) .nil)) .nil

/-- **C139**: if a fruit is given, every row of the table has the accuracy that `fruitify` has for this dataset alone, up to the position in
the sequence of random numbers: the datasets before it do not matter.  NaN and infinite values of the data are replaced by numbers first. -/
theorem C139_alone {K : Sem R P I W S V} (hC : K.CountsRight) (hN : K.KeepsN) (hR : K.Refits) {ρ : ℕ → Rng R}
    {w₀ w : World R P I W S} {ops : List (Op R P I W S)} (h0 : w₀.Empty) (before : Hist K ρ w₀ ops w) {f : ℕ} (hf : f < w.nFruit) (big : R)
    (clf : Classifier R V) {n : ℕ} (hn : 0 < n) (ds : List (PStr × Except FileErr (Loaded R))) {T : List (PStr × Fl R)}
    (h : (fruitifyAll K ρ big clf n (.fruit f) ds [] w).1 = .ok T) :
    List.Forall₂ (fun (d : PStr × Except FileErr (Loaded R)) (t : PStr × Fl R) => ∃ D q, d.2 = .ok D ∧ t = (d.1, .finite q) ∧
      IsExperiment K ρ clf n w f (mapEntries (numOf big) D.Xtrain, mapEntries (numOf big) D.Xtest, D.ytrain, D.ytest) q) ds T := by
  have gen : ∀ (ds : List (PStr × Except FileErr (Loaded R))) (res : List (PStr × Fl R)) (v : World R P I W S), OnlyFits K ρ w v → ∀ T,
      (fruitifyAll K ρ big clf n (.fruit f) ds res v).1 = .ok T → ∃ T', T = res ++ T' ∧
      List.Forall₂ (fun (d : PStr × Except FileErr (Loaded R)) (t : PStr × Fl R) => ∃ D q, d.2 = .ok D ∧ t = (d.1, .finite q) ∧
      IsExperiment K ρ clf n w f (mapEntries (numOf big) D.Xtrain, mapEntries (numOf big) D.Xtest, D.ytrain, D.ytest) q) ds T' := by
    intro ds
    induction ds with
    | nil =>
      intro res v _ T h
      simp only [fruitifyAll, Except.ok.injEq] at h
      exact ⟨[], by simp [h], .nil⟩
    | cons d ds ih =>
      intro res v hv T h
      obtain ⟨name, e | D⟩ := d
      · simp [fruitifyAll] at h
      rw [fruitifyAll] at h
      obtain ⟨k1, k2, -, -⟩ := hv.keeps (before.wf (World.WF.empty h0))
      have hc := call_fits (K := K) (ρ := ρ) big clf n D k1 (hf.trans_le k2.fruit)
      rcases hm : fruitifyCall K ρ big clf n (.fruit f) D v with ⟨e | a, v'⟩
      · rw [hm] at h; simp at h
      rw [hm] at h hc
      simp only at h hc
      obtain ⟨q, rfl, hq⟩ := fruitify_experiment hC hN hR h0 before hv hf clf hn hm
      obtain ⟨T', rfl, h2⟩ := ih _ v' (hv.trans hc) T h
      exact ⟨(name, .finite q) :: T', by simp, .cons ⟨D, q, rfl, rfl, hq⟩ h2⟩
  obtain ⟨T', rfl, h2⟩ := gen ds [] w (OnlyFits.refl K ρ w) T h
  exact h2

/-! ### C140: the result file -/

/-- The name without the ending `.csv`. -/
def csvBase : Option PStr → PStr
  | none => "results_fruits".toList
  | some s => if ".csv".toList <:+ s then s.take (s.length - 4) else s

/-- **C140.**  The result file is `results_fruits.csv`, or the given name with the ending `.csv` added if it is not there; if a file with that name
exists, the time is inserted before the ending. -/
theorem C140_name (exist : PStr → Bool) (stamp : PStr) (output : Option PStr) :
    csvName exist stamp output =
      if exist (csvBase output ++ ".csv".toList) then csvBase output ++ '_' :: stamp ++ ".csv".toList else csvBase output ++ ".csv".toList := by
  unfold csvName csvBase
  cases output <;> dsimp only <;> split <;> (try split) <;> simp_all

theorem csvBase_some (s : PStr) : csvBase (some s) = if ".csv".toList <:+ s then s.take (s.length - 4) else s := rfl

/-- **C140**: a name that ends with `.csv` is taken as it is. -/
theorem C140_ending (s : PStr) : csvBase (some (s ++ ".csv".toList)) = s ∧ (¬ ".csv".toList <:+ s → csvBase (some s) = s) := by
  have h4 : (s ++ ".csv".toList).length - 4 = s.length := by rw [List.length_append]; rfl
  have h5 : (s ++ ".csv".toList).take s.length = s := List.take_left
  refine ⟨?_, fun h => ?_⟩
  · rw [csvBase_some, if_pos (List.suffix_append s _), h4, h5]
  · rw [csvBase_some, if_neg h]

/-- **C140**, all but one case: no existing file is overwritten, unless the name with the time exists as well.  Missing: that case; see `C140_false`. -/
theorem C140_fresh_partial (exist : PStr → Bool) (stamp : PStr) (output : Option PStr)
    (h : exist (csvBase output ++ '_' :: stamp ++ ".csv".toList) = false) : exist (csvName exist stamp output) = false := by
  rw [C140_name]
  split
  · exact h
  · rename_i hx
    exact Bool.eq_false_iff.2 hx

/-- **C140**, what is false: three calls within a second; the third overwrites the result file of the second. -/
theorem C140_false : ∃ (stamp n₁ n₂ n₃ : PStr), n₁ = csvName (fun _ => false) stamp none ∧ n₂ = csvName (fun s => s = n₁) stamp none ∧
    n₃ = csvName (fun s => s = n₁ ∨ s = n₂) stamp none ∧ n₁ ≠ n₂ ∧ n₃ = n₂ :=
  ⟨"2026-01-01-000000".toList, _, _, _, rfl, rfl, rfl, by decide +kernel, by decide +kernel⟩

end Fruits
