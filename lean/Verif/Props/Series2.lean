import Verif.Builtin
import Verif.Props.Series1
import Verif.Props.KernelShape

/-! # C97: a fitted fruit treats every series on its own (for the seeds of the library) -/

set_option linter.unusedSectionVars false

namespace Fruits
variable {R : Type} [Field R] [LinearOrder R] [IsStrictOrderedRing R] [FloorRing R]

/-! ### Weightings -/

/-- A user weighting that treats the series one by one. -/
def CustomLocal (f : Data R → Except Err (List (List R))) : Prop :=
  ∀ (X : Data R) (L : List (List R)), Uni X → f X = .ok L → ∀ i < X.length, f [X.getD i []] = .ok [L.getD i []]

/-- The weighting treats the series one by one (only a question for `weighting.Custom`, if that is what the user passes). -/
def WeightingKind.Local : WeightingKind R → Prop
  | .custom f => CustomLocal f
  | _ => True

theorem getD_map {α β : Type} (f : α → β) (l : List α) (i : ℕ) (a : α) (b : β) (hi : i < l.length) : (l.map f).getD i b = f (l.getD i a) := by
  rw [getD_getElem (by simpa using hi), getD_getElem hi, List.getElem_map]

theorem uni_newAxis {rows : List (List R)} {n : ℕ} (h : ∀ r ∈ rows, r.length = n) : Uni (newAxis rows) := by
  have hs : HasShape (newAxis rows) rows.length 1 n := by
    refine ⟨by simp [newAxis], fun s hs => ?_⟩
    obtain ⟨r, hr, rfl⟩ := List.mem_map.1 hs
    exact ⟨rfl, fun q hq => by rw [List.mem_singleton] at hq; subst hq; exact h _ hr⟩
  exact hs.uni

theorem rescale_single (scale : R) {rows A : List (List R)} {n : ℕ} (hn : ∀ r ∈ rows, r.length = n) (h : rescale scale rows = .ok A) :
    A.length = rows.length ∧ ∀ i < rows.length, rescale scale [rows.getD i []] = .ok [A.getD i []] := by
  unfold rescale at h ⊢
  rcases hB : NRM.transform false (newAxis rows) with e | B
  · rw [hB] at h; cases h
  rw [hB, ok_bind] at h
  cases h
  have hl : (newAxis rows).length = rows.length := by simp [newAxis]
  obtain ⟨b1, b2, b3⟩ := perS_nrm false (newAxis rows) (newAxis rows) B (uni_newAxis hn) (uni_newAxis hn) rfl hB
  refine ⟨by simpa using b2.trans hl, fun i hi => ?_⟩
  have := b3 i (by omega)
  simp only at this
  rw [newAxis_single rows i hi] at this
  rw [this, ok_bind]
  simp only [List.map_cons, List.map_nil]
  rw [getD_map _ B i [] [] (by omega)]
  rfl

theorem normSum_rows {nm : Norm} {C : Data R} {S : List (List R)} (hC : Uni C) (h : normSum nm C = .ok S) : ∃ n, ∀ r ∈ S, r.length = n := by
  obtain ⟨a, b⟩ := mapM_getD (f := fun s : Series R => do
    let y ← increments1 1 (s.getD 0 [])
    pure (cumsum (y.map nm.val))) h [] []
  have key : ∀ n, (∀ s ∈ C, (s.getD 0 []).length = n) → ∀ r ∈ S, r.length = n := by
    intro n hn r hr
    obtain ⟨i, hi, rfl⟩ := List.getElem_of_mem hr
    have := b i (by omega)
    rcases hy : increments1 1 ((C.getD i []).getD 0 []) with e | y
    · simp only [hy] at this; cases this
    simp only [hy, ok_bind] at this
    have h1 := increments1_length hy
    rw [hn _ (getD_mem_lt (by omega))] at h1
    have h2 : cumsum (y.map nm.val) = S.getD i [] := by injection this
    rw [← getD_getElem (e := []) hi, ← h2]
    simp [h1]
  rcases Nat.eq_zero_or_pos (shape1 C) with h0 | h0
  · refine ⟨0, key 0 fun s hs => ?_⟩
    have := (hC.2 s hs).1
    rw [h0] at this
    rw [List.length_eq_zero_iff.1 this]; rfl
  · refine ⟨shape2 C, key _ fun s hs => ?_⟩
    obtain ⟨u, v⟩ := hC.2 s hs
    exact v _ (getD_mem_lt (by omega))

theorem issSums_rows {T : FloatText R} {C : Data R} {nm : PStr} {a : List (List R)} (hC : Uni C) (h : issSums T C nm = .ok a) :
    ∃ n, ∀ r ∈ a, r.length = n := by
  rw [issSums_def] at h
  unfold computeKey at h
  simp only at h
  rcases hn : normOf nm with _ | nm'
  · rw [hn] at h; cases h
  rw [hn] at h
  simp only at h
  rcases hS : normSum nm' C with e | S
  · rw [hS] at h; cases h
  rw [hS, ok_bind] at h
  cases h
  exact normSum_rows hC hS

theorem normLookup_single {T : FloatText R} {C X : Data R} {nm : Norm} {op rel : Bool} {f : Option (R → R)} {scale : R} {L : List (List R)}
    (hC : Uni C) (hX : Uni X) (hl : C.length = X.length) (h : normLookup T C nm op rel f scale X = .ok L) :
    ∀ i < X.length, normLookup T [C.getD i []] nm op rel f scale [X.getD i []] = .ok [L.getD i []] := by
  have hrows : ∃ rows n, (if op then normSum nm X else issSums T C nm.str) = .ok rows ∧ rows.length = X.length ∧ (∀ r ∈ rows, r.length = n) ∧
      ∀ i < X.length, (if op then normSum nm [X.getD i []] else issSums T [C.getD i []] nm.str) = .ok [rows.getD i []] := by
    cases op with
    | true =>
      rcases hS : normSum nm X with e | S
      · simp only [normLookup, hS] at h; cases h
      obtain ⟨n, hn⟩ := normSum_rows hX hS
      obtain ⟨a, b⟩ := normSum_single hS
      exact ⟨S, n, by simp, a, hn, fun i hi => by simpa using b i hi⟩
    | false =>
      rcases hS : issSums T C nm.str with e | S
      · simp only [normLookup, hS] at h; cases h
      obtain ⟨n, hn⟩ := issSums_rows hC hS
      obtain ⟨a, b⟩ := issSums_single hS
      exact ⟨S, n, by simp, by omega, hn, fun i hi => by simpa using b i (by omega)⟩
  obtain ⟨rows, n, r1, r2, r3, r4⟩ := hrows
  have e : ∀ (C X : Data R) rows, (if op then normSum nm X else issSums T C nm.str) = .ok rows →
      normLookup T C nm op rel f scale X = rescale scale (applyTransform f (if rel then relativeRows rows else rows)) := by
    intro C X rows h
    unfold normLookup
    cases op
    · simp only [Bool.false_eq_true, if_false] at h ⊢
      rw [h, ok_bind]
    · simp only [if_true] at h ⊢
      rw [h, ok_bind]
  rw [e C X rows r1] at h
  -- the rows before rescaling are computed row by row
  obtain ⟨g, hg, hgl⟩ : ∃ g : List R → List R, (∀ rows : List (List R), applyTransform f (if rel then relativeRows rows else rows) = rows.map g) ∧
      ∀ r, (g r).length = r.length := by
    cases f with
    | none =>
      cases rel
      · exact ⟨id, fun rows => by simp [applyTransform], fun _ => rfl⟩
      · exact ⟨_, fun rows => by simp only [applyTransform, if_true]; rfl, fun r => by simp⟩
    | some f =>
      cases rel
      · exact ⟨_, fun rows => by simp only [applyTransform]; rfl, fun r => by simp⟩
      · refine ⟨_, fun rows => by simp only [applyTransform, relativeRows, if_true, List.map_map]; rfl, fun r => by simp⟩
  intro i hi
  rw [hg] at h
  obtain ⟨a1, a2⟩ := rescale_single scale (n := n) (by
    intro r hr
    obtain ⟨q, hq, rfl⟩ := List.mem_map.1 hr
    rw [hgl, r3 q hq]) h
  have := a2 i (by simpa [r2] using hi)
  rw [getD_map _ _ _ [] _ (by omega)] at this
  rw [e _ _ _ (r4 i hi), hg]
  exact this

theorem lookup_single {T : FloatText R} {C X : Data R} {k : WeightingKind R} {L : List (List R)} (hk : k.Local)
    (hC : Uni C) (hX : Uni X) (hl : C.length = X.length) (h : k.lookup T C X = .ok L) :
    ∀ i < X.length, k.lookup T [C.getD i []] [X.getD i []] = .ok [L.getD i []] := by
  intro i hi
  have hs2 := (hX.single hi).2.2
  have tile : ∀ x : List R, (tileRow X.length x).getD i [] = x := by
    intro x
    rw [getD_getElem (by simpa [tileRow] using hi)]
    simp [tileRow]
  cases k with
  | custom f => exact hk X L hX h i hi
  | indices rel f scale =>
    simp only [WeightingKind.lookup, Indices.lookup] at h ⊢
    rw [hs2]
    cases rel <;> cases f <;> simp only at h ⊢
    · rcases hr : nrmInts (Indices.base false (shape2 X) : List R) with e | r
      · rw [hr] at h; cases h
      rw [hr, ok_bind] at h
      rw [ok_bind]
      cases h
      rw [tile]; rfl
    all_goals
      generalize hr : rescale scale _ = res at h ⊢
      rcases res with e | r
      · cases h
      rw [ok_bind] at h ⊢
      cases h
      rw [tile]; rfl
  | norm nm op rel f scale => exact normLookup_single hC hX hl h i hi
  | plateaus n rev scale =>
    simp only [WeightingKind.lookup, Plateaus.lookup] at h ⊢
    rw [hs2]
    generalize hr : rescale scale _ = res at h ⊢
    rcases res with e | r
    · cases h
    rw [ok_bind] at h ⊢
    cases h
    rw [tile]; rfl

/-! ### One word of an ISS -/

/-- All letters of a general word give arrays whose length depends on the shape of the series only; nothing is asked of a simple
word. -/
def WordShaped : IWord R → Prop
  | .simple _ => True
  | .general w => ∀ el ∈ w.els, ∀ f ∈ el.bound, LetterShaped f

theorem uni_lens {X : Data R} (hX : Uni X) {Z Z' : Series R} (h : Z ∈ X) (h' : Z' ∈ X) : lens Z = lens Z' := by
  obtain ⟨a, b⟩ := hX.2 Z h
  obtain ⟨a', b'⟩ := hX.2 Z' h'
  have key : ∀ Z : Series R, Z.length = shape1 X → (∀ r ∈ Z, r.length = shape2 X) → lens Z = List.replicate (shape1 X) (shape2 X) := by
    intro Z a b
    rw [List.eq_replicate_iff]
    refine ⟨by simpa [lens] using a, fun l hl => ?_⟩
    obtain ⟨r, hr, rfl⟩ := List.mem_map.1 hl
    exact b r hr
  rw [key Z a b, key Z' a' b']

/-- The weighting for series `i` alone. -/
def wtOf (i : ℕ) (w : Weighting R) (L : List (List R)) : Weighting R := ⟨w.total, fun _ => [L.getD i []], w.name⟩

theorem iteratedSums_len (expf : R → R) (k : SemiringKind) (X : Data R) (w : IWord R)
    (ext : ℕ) (wt : Option (Weighting R)) : (iteratedSums expf k X w ext wt).length = X.length := by
  cases w <;> simp [iteratedSums]

theorem iteratedSums_one (expf : R → R) (k : SemiringKind) (X : Data R) (w : IWord R) (ext : ℕ) (tot : Bool) (nm : PStr)
    (L : Option (List (List R))) (i : ℕ) (hi : i < X.length) :
    iteratedSums expf k [X.getD i []] w ext (L.map fun L => ⟨tot, fun _ => [L.getD i []], nm⟩)
      = [(iteratedSums expf k X w ext (L.map fun L => ⟨tot, fun _ => L, nm⟩)).getD i []] := by
  cases w with
  | general w =>
    simp only [iteratedSums]
    rw [getD_map _ X i [] [] hi]
    rfl
  | simple w =>
    simp only [iteratedSums]
    cases L with
    | none =>
      simp [List.getD_eq_getElem?_getD, hi]
    | some L =>
      simp [List.getD_eq_getElem?_getD, hi]

theorem iteratedSums_lens (expf : R → R) (k : SemiringKind) {X : Data R} (hX : Uni X) (w : IWord R) (hw : WordShaped w) (ext : ℕ)
    (tot : Bool) (nm : PStr) (L : Option (List (List R))) (n : ℕ) (hL : ∀ M, L = some M → X.length ≤ M.length ∧ ∀ r ∈ M, r.length = n) :
    ∀ i < X.length, ∀ j < X.length,
      lens ((iteratedSums expf k X w ext (L.map fun L => ⟨tot, fun _ => L, nm⟩)).getD i [])
        = lens ((iteratedSums expf k X w ext (L.map fun L => ⟨tot, fun _ => L, nm⟩)).getD j []) := by
  intro i hi j hj
  have hZ := uni_lens hX (List.getElem_mem hi) (List.getElem_mem hj)
  cases w with
  | general w =>
    simp only [iteratedSums]
    rw [getD_getElem (by simpa using hi), getD_getElem (by simpa using hj), List.getElem_map, List.getElem_map]
    refine slowSingle_lens k hZ _ ?_ ext
    intro el hel f hf
    obtain ⟨e, he, rfl⟩ := List.mem_map.1 hel
    exact hw e he f hf
  | simple w =>
    simp only [iteratedSums]
    rw [getD_getElem (by simpa using hi), getD_getElem (by simpa using hj), List.getElem_mapIdx, List.getElem_mapIdx]
    refine fastSingle_lens expf k hZ _ _ ?_ _ _
    cases L with
    | none =>
      simp only [Option.map_none]
      rw [getD_map _ X i [] [] hi, getD_map _ X j [] [] hj, getD_getElem hi, getD_getElem hj, lens_ncols hZ]
    | some M =>
      obtain ⟨h1, h2⟩ := hL M rfl
      simp only [Option.map_some]
      rw [h2 _ (getD_mem_lt (by omega)), h2 _ (getD_mem_lt (by omega))]

theorem itemOK_map {α : Type} (g : α → List R) (A : List α) (h : ∀ a ∈ A, ∀ b ∈ A, (g a).length = (g b).length) :
    ItemOK A.length (A.map g) := by
  refine ⟨by simp, ?_⟩
  cases A with
  | nil => exact ⟨0, by simp⟩
  | cons a A =>
    refine ⟨(g a).length, fun r hr => ?_⟩
    obtain ⟨b, hb, rfl⟩ := List.mem_map.1 hr
    exact h b hb a (by simp)

theorem swapAxes_items {m : ℕ} {A : Data R} (h : ∀ i < A.length, ∀ j < A.length, lens (A.getD i []) = lens (A.getD j [])) (k : ℕ) (hm : A.length = m) :
    ∀ it ∈ swapAxes k A, ItemOK m it := by
  intro it hit
  unfold swapAxes at hit
  obtain ⟨r, -, rfl⟩ := mem_tab.1 hit
  subst hm
  refine itemOK_map _ A fun a ha b hb => ?_
  obtain ⟨i, hi, rfl⟩ := List.getElem_of_mem ha
  obtain ⟨j, hj, rfl⟩ := List.getElem_of_mem hb
  have := h i hi j hj
  rw [getD_getElem hi, getD_getElem hj] at this
  exact lens_row this r

theorem swapAxes_one {A : Data R} (k i : ℕ) (hi : i < A.length) : swapAxes k [A.getD i []] = oneSeries i (swapAxes k A) := by
  unfold swapAxes oneSeries
  rw [map_tab]
  apply tab_congr
  intro r _
  simp only [List.map_cons, List.map_nil]
  rw [getD_map _ A i [] [] hi]

theorem setRows_one (i index m : ℕ) (results rows res : Data R) (h : setRows results index m rows = .ok res) :
    setRows (oneSeries i results) index m (oneSeries i rows) = .ok (oneSeries i res) ∧
    ∀ it ∈ res, it ∈ results ∨ it ∈ rows := by
  unfold setRows at h ⊢
  by_cases hl : rows.length = m
  · rw [if_pos hl] at h
    rw [if_pos (by simpa [oneSeries] using hl)]
    cases h
    refine ⟨by simp [oneSeries, List.map_take, List.map_drop], fun it hit => ?_⟩
    simp only [List.mem_append] at hit
    rcases hit with (hit | hit) | hit
    · exact Or.inl (List.mem_of_mem_take hit)
    · exact Or.inr hit
    · exact Or.inl (List.mem_of_mem_drop hit)
  · rw [if_neg hl] at h
    rw [if_neg (by simpa [oneSeries] using hl)]
    match rows, h with
    | [r], h =>
      cases h
      refine ⟨by simp [oneSeries, List.map_take, List.map_drop], fun it hit => ?_⟩
      simp only [List.mem_append] at hit
      rcases hit with (hit | hit) | hit
      · exact Or.inl (List.mem_of_mem_take hit)
      · right; rw [List.mem_replicate] at hit; simp [hit.2]
      · exact Or.inl (List.mem_of_mem_drop hit)

/-- One batch with one word. -/
theorem batch_alone (expf : R → R) (o : ISSObj R) (ws : List (IWord R)) {X : Data R} (hX : Uni X) (tot : Bool) (nm : PStr)
    (L : Option (List (List R))) (n : ℕ) (hL : ∀ M, L = some M → X.length ≤ M.length ∧ ∀ r ∈ M, r.length = n)
    {p : ℕ} {word : IWord R} (hp : ws[p]? = some word) (hw : WordShaped word) {res : Data R}
    (h : (o.conf ws (L.map fun L => ⟨tot, fun _ => L, nm⟩)).batch expf X p 1 = .ok res) :
    (∀ it ∈ res, ItemOK X.length it) ∧
    ∀ i < X.length, (o.conf ws (L.map fun L => ⟨tot, fun _ => [L.getD i []], nm⟩)).batch expf [X.getD i []] p 1 = .ok (oneSeries i res) := by
  have hdrop : (ws.drop p).take 1 = [word] := by
    obtain ⟨hlt, hget⟩ := List.getElem?_eq_some_iff.1 hp
    rw [List.drop_eq_getElem_cons hlt, hget]
    simp
  unfold ISSConf.batch at h ⊢
  rcases hm : (o.conf ws (L.map fun L => ⟨tot, fun _ => L, nm⟩)).nBatch p 1 with e | m
  · rw [hm] at h; cases h
  rw [hm, ok_bind] at h
  have hd : ∀ wt, (o.conf ws wt).words = ws := fun _ => rfl
  rw [hd, hdrop] at h
  simp only [ISSConf.batchLoop] at h
  generalize hdep : (o.conf ws (L.map fun L => ⟨tot, fun _ => L, nm⟩)).depth p = dep at h
  generalize hnw : (o.conf ws (L.map fun L => ⟨tot, fun _ => L, nm⟩)).nWord p word = nw at h
  have hsem : ∀ wt, (o.conf ws wt).semiring = o.semiring := fun _ => rfl
  have hwt : ∀ wt, (o.conf ws wt).weighting = wt := fun _ => rfl
  rw [hsem, hwt] at h
  have hA := iteratedSums_lens expf o.semiring hX word hw dep tot nm L n hL
  generalize hAA : iteratedSums expf o.semiring X word dep (L.map fun L => ⟨tot, fun _ => L, nm⟩) = A at h hA
  have hAl : A.length = X.length := by rw [← hAA, iteratedSums_len]
  rcases hS : setRows (List.replicate m (X.map fun Z => zeros (ncols Z))) 0 nw (swapAxes (rowsOf o.semiring word dep) A) with e | S
  · rw [hS] at h; cases h
  rw [hS, ok_bind] at h
  cases h
  constructor
  · intro it hit
    rcases (setRows_one 0 _ _ _ _ _ hS).2 it hit with h1 | h1
    · rw [List.mem_replicate] at h1
      rw [h1.2]
      refine itemOK_map _ X fun a ha b hb => ?_
      simp [lens_ncols (uni_lens hX ha hb)]
    · exact swapAxes_items (by rw [hAl]; exact hA) _ hAl it h1
  · intro i hi
    have hm' : (o.conf ws (L.map fun L => ⟨tot, fun _ => [L.getD i []], nm⟩)).nBatch p 1 = .ok m := hm
    have hdep' : (o.conf ws (L.map fun L => ⟨tot, fun _ => [L.getD i []], nm⟩)).depth p = dep := hdep
    have hnw' : (o.conf ws (L.map fun L => ⟨tot, fun _ => [L.getD i []], nm⟩)).nWord p word = nw := hnw
    rw [hm', ok_bind, hd, hdrop]
    simp only [ISSConf.batchLoop]
    rw [hdep', hnw', hsem, hwt, iteratedSums_one expf o.semiring X word dep tot nm L i hi, hAA, swapAxes_one _ i (by omega)]
    have e1 : List.replicate m ([X.getD i []].map fun Z => (zeros (ncols Z) : List R))
        = oneSeries i (List.replicate m (X.map fun Z => zeros (ncols Z))) := by
      simp only [oneSeries, List.map_replicate, List.map_cons, List.map_nil]
      rw [getD_map _ X i [] [] hi]
    rw [e1, (setRows_one i _ _ _ _ _ hS).1, ok_bind]

/-- The ISS treats the series one by one: a custom weighting has to, and general letters must not change lengths at will. -/
def BIss.LocalOK (i : BIss R) (ws : List (IWord R)) : Prop :=
  match i with
  | .iss o => (∀ w ∈ ws, WordShaped w) ∧ ∀ k, o.weighting = some k → k.2.Local
  | .cos _ => True

theorem wordSums_one (expf : R → R) (T : FloatText R) (o : ISSObj R) (ws : List (IWord R)) (hws : ∀ w ∈ ws, WordShaped w)
    (hk : ∀ k, o.weighting = some k → k.2.Local) {C X : Data R} (hC : Uni C) (hX : Uni X) (hl : C.length = X.length) (p : ℕ)
    {res : Data R} (h : o.wordSums expf T ws C X p = .ok res) :
    (∀ it ∈ res, ItemOK X.length it) ∧
    ∀ i < X.length, o.wordSums expf T ws [C.getD i []] [X.getD i []] p = .ok (oneSeries i res) := by
  unfold ISSObj.wordSums at h ⊢
  rcases hp : ws[p]? with _ | word
  · rw [hp] at h; cases h
  rw [hp] at h
  simp only at h ⊢
  have hw := hws word (List.mem_of_getElem? hp)
  rcases hn : (o.conf ws none).nBatch p 1 with e | b
  · rw [hn] at h; cases h
  rw [hn, ok_bind] at h
  -- the weighting
  have main : ∀ (wt : Option (Weighting R)), weightingFor T C X o word = .ok wt →
      ∃ (tot : Bool) (nm : PStr) (L : Option (List (List R))) (n : ℕ), wt = L.map (fun L => ⟨tot, fun _ => L, nm⟩) ∧
        (∀ M, L = some M → X.length ≤ M.length ∧ ∀ r ∈ M, r.length = n) ∧
        ∀ i < X.length, weightingFor T [C.getD i []] [X.getD i []] o word = .ok (L.map fun L => ⟨tot, fun _ => [L.getD i []], nm⟩) := by
    intro wt hwt
    unfold weightingFor at hwt ⊢
    cases word with
    | general w =>
      simp only at hwt ⊢
      cases hwt
      exact ⟨true, [], none, 0, rfl, by simp, fun _ _ => rfl⟩
    | simple w =>
      rcases hkk : o.weighting with _ | k
      · rw [hkk] at hwt
        simp only at hwt ⊢
        cases hwt
        exact ⟨true, [], none, 0, rfl, by simp, fun _ _ => rfl⟩
      · rw [hkk] at hwt
        simp only at hwt ⊢
        unfold lookupFor at hwt ⊢
        rcases hL : k.2.lookup T C X with e | L
        · rw [hL] at hwt; cases hwt
        rw [hL, ok_bind] at hwt
        by_cases hc : X.length ≤ L.length ∧ ∀ r ∈ L, r.length = shape2 X
        · rw [if_pos hc, ok_bind] at hwt
          cases hwt
          refine ⟨k.1, k.2.name, some L, shape2 X, rfl, fun M hM => by cases hM; exact hc, fun i hi => ?_⟩
          rw [lookup_single (hk k hkk) hC hX hl hL i hi, ok_bind, if_pos, ok_bind]
          · rfl
          · rw [(hX.single hi).2.2]
            refine ⟨by simp, fun r hr => ?_⟩
            rw [List.mem_singleton] at hr
            rw [hr]
            exact hc.2 _ (getD_mem_lt (by omega))
        · rw [if_neg hc] at hwt; cases hwt
  rcases hwt : weightingFor T C X o word with e | wt
  · rw [hwt] at h; cases h
  rw [hwt, ok_bind] at h
  obtain ⟨tot, nm, L, n, rfl, m1, m2⟩ := main wt hwt
  obtain ⟨b1, b2⟩ := batch_alone expf o ws hX tot nm L n m1 hp hw h
  refine ⟨b1, fun i hi => ?_⟩
  rw [ok_bind, m2 i hi, ok_bind]
  exact b2 i hi

theorem yieldWords_one {F : Data R → Data R → ℕ → Except Err (Data R)} {C X : Data R}
    (hF : ∀ p res, F C X p = .ok res → (∀ it ∈ res, ItemOK X.length it) ∧
      ∀ i < X.length, F [C.getD i []] [X.getD i []] p = .ok (oneSeries i res)) : ∀ (ps : List ℕ), (yieldWords (F C X) ps).2 = none →
    (∀ it ∈ (yieldWords (F C X) ps).1, ItemOK X.length it) ∧
    ∀ i < X.length, yieldWords (F [C.getD i []] [X.getD i []]) ps = (oneSeries i (yieldWords (F C X) ps).1, none)
  | [], _ => ⟨by simp [yieldWords], fun i _ => rfl⟩
  | p :: ps, h => by
    simp only [yieldWords] at h ⊢
    rcases hp : F C X p with e | res
    · rw [hp] at h; cases h
    rw [hp] at h
    simp only at h ⊢
    obtain ⟨f1, f2⟩ := hF p res hp
    obtain ⟨r1, r2⟩ := yieldWords_one hF ps h
    refine ⟨fun it hit => ?_, fun i hi => ?_⟩
    · rcases List.mem_append.1 hit with hit | hit
      · exact f1 it hit
      · exact r1 it hit
    · rw [f2 i hi]
      simp only
      rw [r2 i hi]
      simp [oneSeries]

theorem cos_word_one [NpMath R] (pi : R) (c : CosWISS R) {X : Data R} (hX : Uni X) (p : ℕ) (word : SWord R) {res : Data R}
    (h : c.wordResult pi X p word = .ok res) :
    (∀ it ∈ res, ItemOK X.length it) ∧ ∀ i < X.length, c.wordResult pi [X.getD i []] p word = .ok (oneSeries i res) := by
  have key : ∀ (g : ℕ → Series R → List R), (∀ f Z Z', lens Z = lens Z' → (g f Z).length = (g f Z').length) →
      (∀ it ∈ (List.range c.freqs.length).map (fun f => X.map (g f)), ItemOK X.length it) ∧
      ∀ i < X.length, (List.range c.freqs.length).map (fun f => [X.getD i []].map (g f))
        = oneSeries i ((List.range c.freqs.length).map fun f => X.map (g f)) := by
    intro g hg
    refine ⟨fun it hit => ?_, fun i hi => ?_⟩
    · obtain ⟨f, -, rfl⟩ := List.mem_map.1 hit
      exact itemOK_map _ X fun a ha b hb => hg f a b (uni_lens hX ha hb)
    · unfold oneSeries
      rw [List.map_map]
      apply List.map_congr_left
      intro f _
      simp only [Function.comp, List.map_cons, List.map_nil]
      rw [getD_map _ X i [] [] hi]
  unfold CosWISS.wordResult at h ⊢
  simp only at h ⊢
  split at h
  · cases h
  rename_i hne
  simp only [if_neg hne]
  generalize c.ffnSize = ffn at h ⊢
  generalize c.dropout = dr at h ⊢
  rcases ffn with _ | ffn
  · rcases dr with _ | dr
    · simp only at h ⊢
      split at h
      · cases h
      rename_i hw
      simp only [if_neg hw]
      cases h
      obtain ⟨k1, k2⟩ := key (fun f Z => coswissSingle pi Z word.els (c.freqs.getD f 0) (getWeightings c.exponent c.total word.els.length))
        (fun f Z Z' h => coswissSingle_lens pi h _ _ _)
      exact ⟨k1, fun i hi => by rw [← k2 i hi]⟩
    · simp only at h ⊢
      generalize c.drops = od at h ⊢
      rcases od with _ | drops
      · cases h
      simp only at h ⊢
      generalize drops[p]? = orow at h ⊢
      rcases orow with _ | row
      · cases h
      simp only at h ⊢
      split at h
      · cases h
      rename_i hw
      simp only [if_neg hw]
      cases h
      obtain ⟨k1, k2⟩ := key (fun f Z => leakyCoswissSingle pi Z word.els (c.freqs.getD f 0)
          (getWeightings c.exponent c.total word.els.length) (row.getD f []))
        (fun f Z Z' h => leakyCoswissSingle_lens pi h _ _ _ _)
      exact ⟨k1, fun i hi => by rw [← k2 i hi]⟩
  · simp only at h ⊢
    generalize c.net = od at h ⊢
    rcases od with _ | nets
    · cases h
    simp only at h ⊢
    generalize nets[p]? = orow at h ⊢
    rcases orow with _ | row
    · cases h
    simp only at h ⊢
    split at h
    · cases h
    rename_i hw
    simp only [if_neg hw]
    cases h
    obtain ⟨k1, k2⟩ := key (fun f Z => coswissSingle pi (cosFfn (row.getD f ⟨[], [], []⟩).A (row.getD f ⟨[], [], []⟩).b
          (row.getD f ⟨[], [], []⟩).C Z) word.els (c.freqs.getD f 0) (getWeightings c.exponent c.total word.els.length))
      (fun f Z Z' h => coswissSingle_lens pi (cosFfn_lens _ _ _ h) _ _ _)
    exact ⟨k1, fun i hi => by rw [← k2 i hi]⟩

theorem cos_loop_one [NpMath R] (pi : R) (c : CosWISS R) {X : Data R} (hX : Uni X) : ∀ (ws : List (SWord R)) (p : ℕ),
    (c.batchLoop pi X 1 ws p []).2 = none →
    (∀ it ∈ (c.batchLoop pi X 1 ws p []).1.flatten, ItemOK X.length it) ∧
    ∀ i < X.length, (c.batchLoop pi [X.getD i []] 1 ws p []).1.flatten = oneSeries i (c.batchLoop pi X 1 ws p []).1.flatten ∧
      (c.batchLoop pi [X.getD i []] 1 ws p []).2 = none
  | [], p, _ => ⟨by simp [CosWISS.batchLoop], fun i _ => by simp [CosWISS.batchLoop, oneSeries]⟩
  | word :: ws, p, h => by
    simp only [CosWISS.batchLoop] at h ⊢
    rcases hr : c.wordResult pi X p word with e | res
    · rw [hr] at h; cases h
    rw [hr] at h
    simp only [List.nil_append, List.length_singleton, if_true] at h ⊢
    obtain ⟨w1, w2⟩ := cos_word_one pi c hX p word hr
    obtain ⟨r1, r2⟩ := cos_loop_one pi c hX ws (p + 1) h
    refine ⟨fun it hit => ?_, fun i hi => ?_⟩
    · simp only [List.flatten_cons, List.flatten_nil, List.append_nil, List.mem_append] at hit
      rcases hit with hit | hit
      · exact w1 it hit
      · exact r1 it hit
    · obtain ⟨a, b⟩ := r2 i hi
      rw [w2 i hi]
      simp only
      refine ⟨?_, b⟩
      simp only [List.flatten_cons, List.flatten_nil, List.append_nil]
      rw [a]
      simp [oneSeries]

/-- The ISS of the library treat the series one by one. -/
theorem genLocal_builtin [NpMath R] (L : Lib R) (i : BIss R) (ws : List (IWord R)) (h : i.LocalOK ws) :
    GenLocal fun C X => i.gen L ws C X := by
  intro C X hC hX hl hnone
  cases i with
  | iss o =>
    simp only [BIss.gen] at hnone ⊢
    by_cases hw : ws.length = 0
    · rw [if_pos hw] at hnone; cases hnone
    simp only [if_neg hw] at hnone ⊢
    exact yieldWords_one (F := fun C X p => o.wordSums L.expf L.T ws C X p)
      (fun p res hp => wordSums_one L.expf L.T o ws h.1 h.2 hC hX hl p hp) _ hnone
  | cos c =>
    simp only [BIss.gen] at hnone ⊢
    rcases hs : simpleWords ws with e | sw
    · rw [hs] at hnone; cases hnone
    rw [hs] at hnone
    simp only [CosWISS.batchTransform] at hnone ⊢
    obtain ⟨a, b⟩ := cos_loop_one L.pi c hX sw 0 hnone
    refine ⟨a, fun i hi => ?_⟩
    rw [(b i hi).1, (b i hi).2]

/-- The user functions inside of the seeds of a slice treat the series one by one.  Nothing is asked of the seeds that the
library computes itself. -/
structure SliceUserLocal (w : World R (SafePrep R) (BIss R) (List (IWord R)) (SafeSieve R)) (s : ℕ) : Prop where
  preps : ∀ a ∈ (w.slice s).preps, (w.prep a).1.FunsIndependent
  iss : ∀ a ∈ (w.slice s).iss, (w.iss a).1.LocalOK (w.words (w.iss a).2)

theorem sliceLocal_builtin [NpMath R] (L : Lib R) {w : World R (SafePrep R) (BIss R) (List (IWord R)) (SafeSieve R)} {s : ℕ}
    (h : SliceUserLocal w s) : SliceLocal (builtin L) w s where
  preps a ha := perS_prep L.T _ (h.preps a ha)
  iss a ha := genLocal_builtin L _ _ (h.iss a ha)
  sieves s C X Y n hX hC hY := C72_independent L.T s.1 C X Y ⟨rfl, hX⟩ hC hY

/-- **C97.** Row `i` of the features of a fitted fruit is what the same fruit computes for the dataset that consists of series
`i` alone: the other series of the dataset have no influence.  Only user supplied functions (`FUN`, general letters, a custom
weighting) need to have the same property. -/
theorem C97_series_alone [NpMath R] (L : Lib R) {w : World R (SafePrep R) (BIss R) (List (IWord R)) (SafeSieve R)} {f : ℕ}
    (hf : ∀ s ∈ (w.fruit f).slices, SliceUserLocal w s) (n n' : ℕ) {X : Data R} (hX : Uni X) {A : List (List R)}
    (h : (fruitTransform (builtin L) w n f X X).1 = .ok A) :
    A.length = X.length ∧ ∀ i < X.length, (fruitTransform (builtin L) w n' f [X.getD i []] [X.getD i []]).1 = .ok [A.getD i []] :=
  C97_generic (fun s hs => sliceLocal_builtin L (hf s hs)) n n' hX h

/-- **C97**: a series has the same features in any two datasets that can be transformed. -/
theorem C97_other_series_irrelevant [NpMath R] (L : Lib R) {w : World R (SafePrep R) (BIss R) (List (IWord R)) (SafeSieve R)} {f : ℕ}
    (hf : ∀ s ∈ (w.fruit f).slices, SliceUserLocal w s) (n n' : ℕ) {X X' : Data R} (hX : Uni X) (hX' : Uni X') {A A' : List (List R)}
    (h : (fruitTransform (builtin L) w n f X X).1 = .ok A) (h' : (fruitTransform (builtin L) w n' f X' X').1 = .ok A')
    {i j : ℕ} (hi : i < X.length) (hj : j < X'.length) (e : X.getD i [] = X'.getD j []) : A.getD i [] = A'.getD j [] := by
  have h1 := (C97_series_alone L hf n 0 hX h).2 i hi
  have h2 := (C97_series_alone L hf n' 0 hX' h').2 j hj
  rw [e] at h1
  rw [h1] at h2
  injection h2 with h2
  injection h2

/-! ### Fruits without user functions -/

/-- There is no `FUN` inside. -/
def Prep.NoUser : Prep R → Bool
  | .func _ => false
  | .dim p _ => p.NoUser
  | .new (some p) => p.NoUser
  | _ => true

theorem Prep.independent_of_noUser : ∀ p : Prep R, p.NoUser = true → p.FunsIndependent
  | .func _, h => by simp [Prep.NoUser] at h
  | .dim p _, h => Prep.independent_of_noUser p h
  | .new (some p), h => Prep.independent_of_noUser p h
  | .new none, _ => trivial
  | .inc _, _ | .nrm _, _ | .lag, _ | .win _, _ | .spe _, _ | .rpe _, _ | .cts _, _ | .std _, _ | .mav _, _ | .ffn _, _
  | .dot _, _ | .rin _, _ | .rdw _, _ | .jld _, _ | .qtc _, _ | .dil _, _ | .pdd _, _ => trivial

/-- All words are simple and the weighting is one of the library. -/
def BIss.NoUser (i : BIss R) (ws : List (IWord R)) : Bool :=
  match i with
  | .iss o => (ws.all fun w => match w with | .simple _ => true | .general _ => false) &&
      (match o.weighting with | some (_, .custom _) => false | _ => true)
  | .cos _ => true

theorem BIss.NoUser.local {i : BIss R} {ws : List (IWord R)} (h : i.NoUser ws = true) : i.LocalOK ws := by
  cases i with
  | cos c => trivial
  | iss o =>
    simp only [BIss.NoUser, Bool.and_eq_true, List.all_eq_true] at h
    refine ⟨fun w hw => ?_, fun k hk => ?_⟩
    · have := h.1 w hw
      cases w with
      | simple w => trivial
      | general w => simp at this
    · have := h.2
      rw [hk] at this
      obtain ⟨t, k⟩ := k
      cases k with
      | custom f => simp at this
      | indices => trivial
      | norm => trivial
      | plateaus => trivial

/-- The seeds of the fruit contain no user functions. -/
def fruitNoUser (w : World R (SafePrep R) (BIss R) (List (IWord R)) (SafeSieve R)) (f : ℕ) : Bool :=
  (w.fruit f).slices.all fun s => ((w.slice s).preps.all fun a => (w.prep a).1.NoUser) &&
    (w.slice s).iss.all fun a => (w.iss a).1.NoUser (w.words (w.iss a).2)

/-- **C97**, without any condition on the fruit except that its seeds are those of the library: the features of a series do
not depend on the other series that are transformed with it. -/
theorem C97_library [NpMath R] (L : Lib R) {w : World R (SafePrep R) (BIss R) (List (IWord R)) (SafeSieve R)} {f : ℕ}
    (hf : fruitNoUser w f = true) (n n' : ℕ) {X : Data R} (hX : Uni X) {A : List (List R)}
    (h : (fruitTransform (builtin L) w n f X X).1 = .ok A) :
    A.length = X.length ∧ ∀ i < X.length, (fruitTransform (builtin L) w n' f [X.getD i []] [X.getD i []]).1 = .ok [A.getD i []] := by
  refine C97_series_alone L (fun s hs => ?_) n n' hX h
  simp only [fruitNoUser, List.all_eq_true, Bool.and_eq_true] at hf
  obtain ⟨h1, h2⟩ := hf s hs
  exact ⟨fun a ha => Prep.independent_of_noUser _ (h1 a ha), fun a ha => BIss.NoUser.local (h2 a ha)⟩

end Fruits
