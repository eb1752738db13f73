import Verif.Builtin
import Verif.Props.Fruit3
import Verif.Props.Sieve4
import Verif.Props.Prep10
import Verif.Props.Cos2
import Verif.Props.Copies

/-! # The seeds of the library fulfil what the theorems about fruits ask of seeds -/

namespace Fruits
set_option linter.unusedSectionVars false

variable {R : Type} [Field R] [LinearOrder R] [IsStrictOrderedRing R] [FloorRing R]

/-! ### Preparateurs keep the number of series -/

theorem scatter_length {α : Type*} : ∀ (m : List Bool) (o v : List α), (scatter m o v).length = o.length
  | [], _, _ => rfl
  | _ :: _, [], _ => by simp [scatter]
  | false :: ms, o :: os, vs => by simp [scatter, scatter_length ms os vs]
  | true :: ms, o :: os, [] => by simp [scatter, scatter_length ms os []]
  | true :: ms, o :: os, v :: vs => by simp [scatter, scatter_length ms os vs]

theorem regroup_length {α : Type} : ∀ (ks : List ℕ) (xs : List α), (NRM.perDim.regroup ks xs).length = ks.length
  | [], _ => rfl
  | k :: ks, xs => by simp [NRM.perDim.regroup, regroup_length ks]

theorem nrm_length {b : Bool} {X Y : Data R} (h : NRM.transform b X = .ok Y) : Y.length = X.length := by
  unfold NRM.transform at h
  cases b with
  | true =>
    simp only [if_true, NRM.perSeries] at h
    rcases h1 : (X.mapM fun s => do
      let r ← s.mapM minE
      minE r) with e | mins
    · rw [h1] at h; cases h
    rw [h1, ok_bind] at h
    rcases h2 : (X.mapM fun s => do
      let r ← s.mapM maxE
      maxE r) with e | maxs
    · rw [h2] at h; cases h
    rw [h2, ok_bind] at h
    cases h
    rw [scatter_length, List.length_map]
  | false =>
    simp only [Bool.false_eq_true, if_false, NRM.perDim] at h
    rcases h1 : X.flatten.mapM minE with e | mins
    · rw [h1] at h; cases h
    rw [h1, ok_bind] at h
    rcases h2 : X.flatten.mapM maxE with e | maxs
    · rw [h2] at h; cases h
    rw [h2, ok_bind] at h
    cases h
    rw [regroup_length, List.length_map]

theorem mapRowsM_length {S : Type} {f : List R → Except Err (List S)} {X : Data R} {Y : Data S} (h : mapRowsM f X = .ok Y) :
    Y.length = X.length := mapM_length h

theorem concatDims_length {A B Z : Data R} (h : concatDims A B = .ok Z) : Z.length = A.length ∧ Z.length = B.length := by
  unfold concatDims at h
  split at h
  · next hc => cases h; rw [List.length_zipWith, hc.1]; simp
  · cases h

theorem appendDims_length {X Y Z : Data R} (h : appendDims X Y = .ok Z) : Z.length = X.length := by
  unfold appendDims at h
  split at h
  · next hl =>
    split at h
    · cases h; rw [List.length_zipWith, hl, min_self]
    · split at h
      · cases h; rw [List.length_zipWith, hl, min_self]
      · cases h
  · cases h

theorem Prep.transformC_length [NpMath R] (T : FloatText R) : ∀ (p : Prep R) (C X Y : Data R), p.KeepsSeries →
    C.length = X.length → p.transformC T C X = .ok Y → Y.length = X.length
  | .inc p, C, X, Y, _, hl, h => mapRowsM_length h
  | .std p, C, X, Y, _, hl, h => by
    simp only [Prep.transformC, STD.transform] at h
    split at h
    · cases h
      split <;> simp
    · split at h
      · cases h
      · cases h; simp [mapEntries, mapRows]
  | .nrm b, C, X, Y, _, hl, h => nrm_length h
  | .mav p, C, X, Y, _, hl, h => by
    simp only [Prep.transformC, MAV.transform] at h
    split at h
    · cases h
    · cases h; simp [mapRows]
  | .lag, C, X, Y, _, hl, h => mapM_length h
  | .ffn p, C, X, Y, _, hl, h => by
    simp only [Prep.transformC, FFN.transform] at h
    split at h
    · cases h
    · exact mapM_length h
  | .rin p, C, X, Y, _, hl, h => by
    simp only [Prep.transformC, RIN.transform] at h
    split at h
    · cases h
    · cases h; simp
  | .rdw p, C, X, Y, _, hl, h => by
    simp only [Prep.transformC, RDW.transform] at h
    split at h
    · cases h
    · exact mapM_length h
  | .jld p, C, X, Y, _, hl, h => by
    simp only [Prep.transformC, JLD.transform] at h
    split at h
    · cases h
    · cases h; simp
  | .spe p, C, X, Y, _, hl, h => by
    simp only [Prep.transformC, SPE.transform] at h
    split at h
    · cases h; simp [mapRows]
    · next nm _ =>
      rcases hs : issSums T C nm.str with e | sums
      · rw [hs] at h; cases h
      rw [hs, ok_bind] at h
      have hw : (sums.map p.wave).length = X.length := by rw [List.length_map, (issSums_single hs).1, hl]
      split at h
      · cases h; rw [List.length_zipWith, hw, min_self]
      · cases h
  | .rpe p, C, X, Y, _, hl, h => by
    simp only [Prep.transformC, RPE.transform] at h
    split at h
    · cases h
    · cases h; simp
  | .cts p, C, X, Y, _, hl, h => mapRowsM_length h
  | .qtc p, C, X, Y, _, hl, h => by
    simp only [Prep.transformC, QTC.transform] at h
    split at h
    · cases h
    · split at h <;> cases h <;> simp [mapEntries, mapRows]
  | .func f, C, X, Y, hk, hl, h => hk X Y h
  | .dil p, C, X, Y, _, hl, h => by
    simp only [Prep.transformC, DIL.transform] at h
    split at h
    · cases h
    · cases h; simp [mapRows]
  | .win p, C, X, Y, _, hl, h => by
    simp only [Prep.transformC, WIN.transform] at h
    rcases h1 : coqs T C p.start "L2".toList with e | a
    · rw [h1] at h; cases h
    rw [h1, ok_bind] at h
    rcases h2 : coqs T C p.stop "L2".toList with e | b
    · rw [h2] at h; cases h
    rw [h2, ok_bind] at h
    have := mapM_length h
    rwa [List.length_range] at this
  | .dot p, C, X, Y, _, hl, h => by
    simp only [Prep.transformC, DOT.transform] at h
    split at h
    · cases h
    · exact mapRowsM_length h
  | .pdd p, C, X, Y, _, hl, h => by
    simp only [Prep.transformC, PDD.transform] at h
    split at h
    · cases h
    · cases h; simp [mapRows]
  | .dim p dims, C, X, Y, hk, hl, h => by
    simp only [Prep.transformC] at h
    rcases h1 : selectDims dims X with e | sub
    · rw [h1] at h; cases h
    rw [h1, ok_bind] at h
    rcases h2 : p.transformC T sub sub with e | Z
    · rw [h2] at h; cases h
    rw [h2, ok_bind] at h
    rcases h3 : deleteDims dims X with e | rest
    · rw [h3] at h; cases h
    rw [h3, ok_bind] at h
    rw [(concatDims_length h).1, mapM_length h3]
  | .new none, C, X, Y, _, hl, h => by
    simp only [Prep.transformC] at h
    cases h; simp
  | .new (some p), C, X, Y, hk, hl, h => by
    simp only [Prep.transformC] at h
    rcases h2 : p.transformC T X X with e | Z
    · rw [h2] at h; cases h
    rw [h2, ok_bind] at h
    exact appendDims_length h

/-! ### Sieves keep the number of series -/

theorem backend_length {op : SegOp R} {cuts : List (List ℤ)} {qs : List (QVal R)} {X Y : List (List R)}
    (h : backend op cuts qs X = .ok Y) : Y.length = X.length := by
  have := mapM_length h
  rwa [List.length_range] at this

theorem Sieve.transformC_length (T : FloatText R) : ∀ (s : Sieve R) (C : Data R) (X Y : List (List R)),
    s.transformC T C X = .ok Y → Y.length = X.length
  | .seg k p, C, X, Y, h => by
    by_cases hk : k = .end_
    · subst hk
      exact (end_cols T C p X Y h).1
    · simp only [Sieve.transformC] at h
      cases k with
      | end_ => exact absurd rfl hk
      | max =>
        simp only [Seg.transform] at h
        rcases h1 : p.useQuantiles with e | qs
        · rw [h1] at h; cases h
        rw [h1, ok_bind] at h
        rcases h2 : p.cuts T C X.length (rowLen X) with e | cs
        · rw [h2] at h; cases h
        rw [h2, ok_bind] at h
        exact backend_length h
      | min =>
        simp only [Seg.transform] at h
        rcases h1 : p.useQuantiles with e | qs
        · rw [h1] at h; cases h
        rw [h1, ok_bind] at h
        rcases h2 : p.cuts T C X.length (rowLen X) with e | cs
        · rw [h2] at h; cases h
        rw [h2, ok_bind] at h
        exact backend_length h
      | cur | avg | std =>
        simp only [Seg.transform] at h
        rcases h1 : p.useQuantiles with e | qs
        · rw [h1] at h; cases h
        rw [h1, ok_bind] at h
        rcases h2 : p.cuts T C X.length (rowLen X) with e | cs
        · rw [h2] at h; cases h
        rw [h2, ok_bind] at h
        rcases h3 : X.mapM secondIncrements with e | X2
        · rw [h3] at h; cases h
        rw [h3, ok_bind] at h
        rw [backend_length h, mapM_length h3]
  | .inc k n p, C, X, Y, h => by
    simp only [Sieve.transformC, Seg.incTransform] at h
    rcases hq : p.useQuantiles with e | qs
    · rw [hq] at h; cases h
    rw [hq, ok_bind] at h
    rcases hA : preTransform n X with e | A
    · rw [hA] at h; cases h
    rw [hA, ok_bind] at h
    rcases hcs : p.cuts T C A.length (rowLen A) with e | cs
    · rw [hcs] at h; cases h
    rw [hcs, ok_bind] at h
    rw [backend_length h, preTransform_length n X A hA]
  | .ppv p, C, X, Y, h | .cpv p, C, X, Y, h => by
    simp only [Sieve.transformC, PPV.transform] at h
    split at h
    · cases h
    · split at h
      · cases h
      · cases h; simp
  | .wrapInc s d k, C, X, Y, h => by
    simp only [Sieve.transformC] at h
    rcases hY : wrapIncData d k X with e | Z
    · rw [hY] at h; cases h
    rw [hY, ok_bind] at h
    rw [Sieve.transformC_length T s _ Z Y h, wrapIncData_length d k X Z hY]
  | .wrapInt s, C, X, Y, h => by
    rw [Sieve.transformC_length T s (newAxis (X.map cumsum)) (X.map cumsum) Y h, List.length_map]

/-! ### Iterated sums -/

theorem setRows_ok {res rows out : Data R} {m : ℕ} (h : setRows res 0 m rows = .ok out) (hr : res.length = m) :
    out.length = m ∧ ∀ r ∈ out, r ∈ rows := by
  unfold setRows at h
  split at h
  · next hl =>
    cases h
    have hd : res.drop (0 + m) = [] := List.drop_eq_nil_of_le (by omega)
    rw [hd]
    simp [hl]
  · split at h
    · next r _ =>
      cases h
      have hd : res.drop (0 + m) = [] := List.drop_eq_nil_of_le (by omega)
      rw [hd]
      refine ⟨by simp, fun x hx => ?_⟩
      simp only [List.take_zero, List.nil_append, List.append_nil] at hx
      rw [List.eq_of_mem_replicate hx]
      exact List.mem_singleton_self _
    · cases h

theorem iteratedSums_length (expf : R → R) (k : SemiringKind) (X : Data R) (word : IWord R) (e : ℕ)
    (wt : Option (Weighting R)) : (iteratedSums expf k X word e wt).length = X.length := by
  cases word <;> simp [iteratedSums]

theorem nBatch_one {c : ISSConf R} {i m : ℕ} {word : IWord R} (hw : c.words[i]? = some word) (h : c.nBatch i 1 = .ok m) :
    c.nWord i word = m := by
  obtain ⟨hi, hg⟩ := List.getElem?_eq_some_iff.1 hw
  have ht : (c.words.drop i).take 1 = [word] := by
    rw [List.drop_eq_getElem_cons hi, hg]; rfl
  unfold ISSConf.nBatch at h
  unfold ISSConf.nWord ISSConf.depth
  rcases hs : c.semiring <;> rcases hm : c.mode <;> rw [hs, hm] at h <;> simp only [Except.ok.injEq, reduceCtorEq] at h <;>
    simp_all [planCountRange]

/-- One batch with one word: the number of rows, each with one entry per series. -/
theorem batch_one {expf : R → R} {c : ISSConf R} {X : Data R} {i : ℕ} {word : IWord R} {rows : Data R}
    (hw : c.words[i]? = some word) (h : c.batch expf X i 1 = .ok rows) :
    c.nBatch i 1 = .ok rows.length ∧ ∀ r ∈ rows, r.length = X.length := by
  unfold ISSConf.batch at h
  rcases hm : c.nBatch i 1 with e | m
  · rw [hm] at h; cases h
  rw [hm, ok_bind] at h
  obtain ⟨hi, hg⟩ := List.getElem?_eq_some_iff.1 hw
  have ht : (c.words.drop i).take 1 = [word] := by
    rw [List.drop_eq_getElem_cons hi, hg]; rfl
  rw [ht] at h
  simp only [ISSConf.batchLoop, nBatch_one hw hm] at h
  rcases hs : setRows (List.replicate m (X.map fun Z => zeros (ncols Z))) 0 m (swapAxes (rowsOf c.semiring word (c.depth i))
      (iteratedSums expf c.semiring X word (c.depth i) c.weighting)) with e | out
  · rw [hs] at h; cases h
  rw [hs, ok_bind] at h
  cases h
  obtain ⟨h1, h2⟩ := setRows_ok hs (by simp)
  refine ⟨by rw [h1], fun r hr => ?_⟩
  have := h2 r hr
  unfold swapAxes at this
  obtain ⟨j, _, rfl⟩ := mem_tab.1 this
  rw [List.length_map, iteratedSums_length]

theorem wordSums_ok {expf : R → R} {T : FloatText R} {o : ISSObj R} {ws : List (IWord R)} {C X : Data R} {i : ℕ}
    {rows : Data R} (h : o.wordSums expf T ws C X i = .ok rows) :
    (o.conf ws none).nBatch i 1 = .ok rows.length ∧ ∀ r ∈ rows, r.length = X.length := by
  unfold ISSObj.wordSums at h
  rcases hw : ws[i]? with _ | word
  · rw [hw] at h; cases h
  rw [hw] at h
  simp only at h
  rcases hm : (o.conf ws none).nBatch i 1 with e | m
  · rw [hm] at h; cases h
  rw [hm, ok_bind] at h
  rcases ht : weightingFor T C X o word with e | wt
  · rw [ht] at h; cases h
  rw [ht, ok_bind] at h
  obtain ⟨h1, h2⟩ := batch_one (c := o.conf ws wt) hw h
  exact ⟨by rw [← hm]; exact h1, h2⟩

theorem yieldWords_rows {f : ℕ → Except Err (Data R)} {m : ℕ} (hf : ∀ i rows, f i = .ok rows → ∀ r ∈ rows, r.length = m) :
    ∀ is : List ℕ, ∀ r ∈ (yieldWords f is).1, r.length = m
  | [], r, h => by simp [yieldWords] at h
  | i :: is, r, h => by
    rw [yieldWords] at h
    rcases hi : f i with e | rows
    · rw [hi] at h; simp at h
    · rw [hi] at h
      rcases List.mem_append.1 h with h | h
      · exact hf i rows hi r h
      · exact yieldWords_rows hf is r h

theorem yieldWords_count {f : ℕ → Except Err (Data R)} {m : ℕ → ℕ} (hf : ∀ i rows, f i = .ok rows → rows.length = m i) :
    ∀ (is : List ℕ) (its : Data R), yieldWords f is = (its, none) → its.length = (is.map m).sum
  | [], its, h => by cases h; rfl
  | i :: is, its, h => by
    rw [yieldWords] at h
    rcases hi : f i with e | rows
    · rw [hi] at h; cases h
    · rw [hi] at h
      simp only [Prod.mk.injEq] at h
      rw [← h.1, List.length_append, hf i rows hi, List.map_cons, List.sum_cons,
        yieldWords_count hf is (yieldWords f is).1 (Prod.ext rfl h.2)]

theorem yieldWords_ok {f : ℕ → Except Err (Data R)} :
    ∀ (is : List ℕ) (its : Data R), yieldWords f is = (its, none) → ∀ i ∈ is, ∃ rows, f i = .ok rows
  | [], its, h, i, hi => by simp at hi
  | j :: is, its, h, i, hi => by
    rw [yieldWords] at h
    rcases hj : f j with e | rows
    · rw [hj] at h; cases h
    · rw [hj] at h
      simp only [Prod.mk.injEq] at h
      rcases List.mem_cons.1 hi with rfl | hi
      · exact ⟨rows, hj⟩
      · exact yieldWords_ok is _ (Prod.ext rfl h.2) i hi

theorem sum_range_getD (l : List ℕ) : ((List.range l.length).map fun i => l.getD i 0).sum = l.sum := by
  congr 1
  apply List.ext_getElem
  · simp
  · intro i h1 h2
    simp only [List.getElem_map, List.getElem_range]
    rw [getD_getElem h2]

theorem cachePlan_length (strs : List PStr) : (cachePlan strs).length = strs.length := by simp [cachePlan]

/-- The numbers of rows of the batches add up to `n_iterated_sums()`. -/
theorem nBatch_total {c : ISSConf R} (hne : c.words.length ≠ 0) (h : ∀ i < c.words.length, ∃ m, c.nBatch i 1 = .ok m) :
    ∃ m : ℕ → ℕ, (∀ i < c.words.length, c.nBatch i 1 = .ok (m i)) ∧
      c.nIteratedSums = .ok (((List.range c.words.length).map m).sum) := by
  obtain ⟨m0, hm0⟩ := h 0 (by omega)
  have hb : ∀ i < c.words.length, ∀ w, c.words[i]? = some w → (c.words.drop i).take 1 = [w] := by
    intro i hi w hw
    obtain ⟨_, hg⟩ := List.getElem?_eq_some_iff.1 hw
    rw [List.drop_eq_getElem_cons hi, hg]; rfl
  have hplan : c.mode = .extended → ((List.range c.words.length).map fun i => c.plan.getD i 0).sum = c.plan.sum := by
    intro hm
    have hl : c.plan.length = c.words.length := by
      unfold ISSConf.plan; rw [hm]; simp [cachePlan_length]
    rw [← hl]; exact sum_range_getD _
  rcases hs : c.semiring <;> rcases hm : c.mode
  all_goals first
    | (exfalso; unfold ISSConf.nBatch at hm0; rw [hs, hm] at hm0; simp at hm0; done)
    | skip
  · exact ⟨fun _ => 1, fun i _ => by unfold ISSConf.nBatch; rw [hs, hm], by
      unfold ISSConf.nIteratedSums; rw [hs, hm]; simp⟩
  · exact ⟨fun i => c.plan.getD i 0, fun i _ => by unfold ISSConf.nBatch; rw [hs, hm]; simp [planCountRange], by
      unfold ISSConf.nIteratedSums; rw [hs, hm]; simp only [planCount, hplan hm]⟩
  · exact ⟨fun _ => 1, fun i _ => by unfold ISSConf.nBatch; rw [hs, hm], by
      unfold ISSConf.nIteratedSums; rw [hs, hm]; simp⟩
  · exact ⟨fun i => c.plan.getD i 0, fun i _ => by unfold ISSConf.nBatch; rw [hs, hm]; simp [planCountRange], by
      unfold ISSConf.nIteratedSums; rw [hs, hm]; simp only [planCount, hplan hm]⟩
  · refine ⟨fun i => triIndex ((c.words.map IWord.len).getD i 0), fun i hi => ?_, ?_⟩
    · unfold ISSConf.nBatch; rw [hs, hm]
      rw [hb i hi c.words[i] (List.getElem?_eq_getElem hi)]
      simp only
      rw [getD_getElem (by simpa using hi)]
      simp
    · unfold ISSConf.nIteratedSums; rw [hs, hm]
      simp only
      congr 2
      apply List.ext_getElem
      · simp
      · intro i h1 h2
        simp only [List.getElem_map, List.getElem_range]
        rw [getD_getElem (by simpa using h1), List.getElem_map]
  · exact ⟨fun _ => 1, fun i _ => by unfold ISSConf.nBatch; rw [hs, hm], by
      unfold ISSConf.nIteratedSums; rw [hs, hm]; simp⟩
  · exact ⟨fun i => c.plan.getD i 0, fun i _ => by unfold ISSConf.nBatch; rw [hs, hm]; simp [planCountRange], by
      unfold ISSConf.nIteratedSums; rw [hs, hm]; simp only [planCount, hplan hm]⟩

theorem wordResult_ok [NpMath R] {pi : R} {c : CosWISS R} {X : Data R} {w : ℕ} {word : SWord R} {r : Data R}
    (h : c.wordResult pi X w word = .ok r) : r.length = c.freqs.length ∧ ∀ x ∈ r, x.length = X.length := by
  unfold CosWISS.wordResult at h
  simp only at h
  repeat' split at h
  all_goals first
    | (cases h; done)
    | (cases h
       refine ⟨by simp, fun x hx => ?_⟩
       obtain ⟨f, _, rfl⟩ := List.mem_map.1 hx
       simp)

theorem cosLoop_ok [NpMath R] {pi : R} {c : CosWISS R} {X : Data R} : ∀ (ws : List (SWord R)) (w : ℕ),
    (∀ x ∈ (c.batchLoop pi X 1 ws w []).1.flatten, x.length = X.length) ∧
      ((c.batchLoop pi X 1 ws w []).2 = none → (c.batchLoop pi X 1 ws w []).1.flatten.length = c.freqs.length * ws.length)
  | [], w => by simp [CosWISS.batchLoop]
  | word :: ws, w => by
    rw [CosWISS.batchLoop]
    rcases hr : c.wordResult pi X w word with e | r
    · simp
    · obtain ⟨h1, h2⟩ := wordResult_ok hr
      obtain ⟨h3, h4⟩ := cosLoop_ok (pi := pi) (c := c) (X := X) ws (w + 1)
      simp only [List.nil_append, List.length_singleton, if_true, List.flatten_nil, List.append_nil, List.flatten_cons]
      refine ⟨fun x hx => ?_, fun hn => ?_⟩
      · rcases List.mem_append.1 hx with hx | hx
        · exact h2 x hx
        · exact h3 x hx
      · rw [List.length_append, h1, h4 hn, List.length_cons, Nat.mul_add, Nat.mul_one, Nat.add_comm]

theorem simpleWords_length : ∀ {ws : List (IWord R)} {sw : List (SWord R)}, simpleWords ws = .ok sw → sw.length = ws.length
  | [], sw, h => by cases h; rfl
  | .simple w :: ws, sw, h => by
    rw [simpleWords] at h
    rcases hr : simpleWords ws with e | r
    · rw [hr] at h; cases h
    · rw [hr, ok_bind] at h
      cases h
      simp [simpleWords_length hr]
  | .general _ :: ws, sw, h => by cases h

variable [NpMath R]

/-- `n_iterated_sums()` of the library's ISS classes is the number of iterated sums they yield. -/
theorem builtin_countsRight (L : Lib R) : (builtin L).CountsRight := by
  intro i ws C X its h
  simp only [builtin] at h ⊢
  cases i with
  | iss o =>
    simp only [BIss.gen] at h
    split at h
    · cases h
    · next hne =>
      have hok := yieldWords_ok _ _ h
      obtain ⟨m, hm, ht⟩ := nBatch_total (c := o.conf ws none) hne (fun i hi => by
        obtain ⟨rows, hr⟩ := hok i (List.mem_range.2 hi)
        exact ⟨_, (wordSums_ok hr).1⟩)
      simp only [BIss.count]
      rw [ht]
      congr 1
      symm
      refine yieldWords_count (m := m) (fun i rows hr => ?_) _ _ h
      have hi : i < ws.length := by
        by_contra hi
        unfold ISSObj.wordSums at hr
        rw [List.getElem?_eq_none (by omega)] at hr
        cases hr
      have := (wordSums_ok hr).1.symm.trans (hm i hi)
      simpa using this
  | cos c =>
    simp only [BIss.gen] at h
    split at h
    · cases h
    · next sw hs =>
      simp only [Prod.mk.injEq] at h
      simp only [BIss.count]
      rw [← h.1, ← simpleWords_length hs]
      have := (cosLoop_ok (pi := L.pi) (c := c) (X := X) sw 0).2 h.2
      unfold CosWISS.batchTransform
      rw [this]

/-- The library's seeds keep the number of series. -/
theorem builtin_keepsRows (L : Lib R) : (builtin L).KeepsRows where
  prep p C X Y hl h := Prep.transformC_length L.T p.1 C X Y p.2 hl h
  sieve s C X A h := Sieve.transformC_length L.T s.1 C X A h
  iss i ws C X it h := by
    simp only [builtin] at h
    cases i with
    | iss o =>
      simp only [BIss.gen] at h
      split at h
      · simp at h
      · exact yieldWords_rows (fun i rows hr => (wordSums_ok hr).2) _ it h
    | cos c =>
      simp only [BIss.gen] at h
      split at h
      · simp at h
      · next sw _ => exact (cosLoop_ok (pi := L.pi) (c := c) (X := X) sw 0).1 it h

/-! ### Sieves keep their number of features -/

theorem PPV.new_nfeatures {o : List R → List R} (ho : SetOrder o) {p q : PPV R} (hd : p.segments = true → (p.qc.map (·.1)).Nodup)
    (h : PPV.new o (.list (p.qc.map (·.1))) (.list (p.qc.map (·.2))) p.sampleSize p.segments = .ok q) :
    q.nfeatures = p.nfeatures := by
  unfold PPV.new at h
  rcases ha : PPV.args (.list (p.qc.map (·.1))) (.list (p.qc.map (·.2))) with e | ⟨qs, cs⟩
  · rw [ha] at h; cases h
  rw [ha, ok_bind] at h
  have hqc : qs = p.qc.map (·.1) ∧ cs = p.qc.map (·.2) := by
    unfold PPV.args at ha
    simp only at ha
    split at ha
    · cases ha
    · split at ha
      · cases ha
      · cases ha; exact ⟨rfl, rfl⟩
  obtain ⟨rfl, rfl⟩ := hqc
  simp only at h
  split at h
  · cases h
  split at h
  · cases h
  cases h
  unfold PPV.nfeatures
  simp only
  cases hsg : p.segments with
  | false =>
    simp only [Bool.false_eq_true, if_false]
    rw [List.length_zip]; simp
  | true =>
    simp only [if_true]
    rw [List.length_insertionSort, List.length_zip, (ho _).length_eq, List.dedup_eq_self.2 (hd hsg)]
    simp

theorem Sieve.copy_nfeatures {o : List R → List R} (ho : SetOrder o) : ∀ s t : Sieve R, s.Distinct → s.copy o = .ok t →
    t.nfeatures = s.nfeatures
  | .seg _ _, t, _, h => by cases h; rfl
  | .inc _ _ _, t, _, h => by cases h; rfl
  | .ppv p, t, hd, h => by
    simp only [Sieve.copy] at h
    rcases hp : PPV.new o (.list (p.qc.map (·.1))) (.list (p.qc.map (·.2))) p.sampleSize p.segments with e | q
    · rw [hp] at h; cases h
    · rw [hp, ok_bind] at h; cases h; exact PPV.new_nfeatures ho hd hp
  | .cpv p, t, hd, h => by
    simp only [Sieve.copy] at h
    rcases hp : PPV.new o (.list (p.qc.map (·.1))) (.list (p.qc.map (·.2))) p.sampleSize p.segments with e | q
    · rw [hp] at h; cases h
    · rw [hp, ok_bind] at h; cases h; exact PPV.new_nfeatures ho hd hp
  | .wrapInc s d k, t, hd, h => by
    simp only [Sieve.copy] at h
    rcases hp : s.copy o with e | q
    · rw [hp] at h; cases h
    · rw [hp, ok_bind] at h; cases h; exact Sieve.copy_nfeatures ho s q hd hp
  | .wrapInt s, t, hd, h => by
    simp only [Sieve.copy] at h
    rcases hp : s.copy o with e | q
    · rw [hp] at h; cases h
    · rw [hp, ok_bind] at h; cases h; exact Sieve.copy_nfeatures ho s q hd hp

theorem Sieve.fit_nfeatures (g : Rng R) : ∀ (s t : Sieve R) (X : List (List R)), s.fit g X = .ok t →
    t.nfeatures = s.nfeatures ∧ t.requiresFitting = s.requiresFitting
  | .seg k p, t, X, h => by
    simp only [Sieve.fit, Seg.fit] at h
    rcases hp : p.q.mapM (quantileValue X.flatten) with e | q
    · rw [hp] at h; cases h
    · rw [hp] at h; cases h; exact ⟨rfl, rfl⟩
  | .inc k i p, t, X, h => by
    simp only [Sieve.fit, Seg.incFit, Seg.fit] at h
    rcases hA : preTransform i X with e | A
    · rw [hA] at h; cases h
    rw [hA, ok_bind] at h
    rcases hp : p.q.mapM (quantileValue A.flatten) with e | q
    · rw [hp] at h; cases h
    · rw [hp] at h; cases h; exact ⟨rfl, rfl⟩
  | .ppv p, t, X, h => by
    simp only [Sieve.fit, PPV.fit] at h
    rcases hp : p.qc.zipIdx.mapM (p.fitValue g X) with e | q
    · rw [hp] at h; cases h
    · rw [hp] at h; cases h; exact ⟨rfl, rfl⟩
  | .cpv p, t, X, h => by
    simp only [Sieve.fit, PPV.fit] at h
    rcases hp : p.qc.zipIdx.mapM (p.fitValue g X) with e | q
    · rw [hp] at h; cases h
    · rw [hp] at h; cases h; exact ⟨rfl, rfl⟩
  | .wrapInc s d k, t, X, h => by
    simp only [Sieve.fit] at h
    rcases hY : wrapIncData d k X with e | Y
    · rw [hY] at h; cases h
    rw [hY, ok_bind] at h
    rcases hp : s.fit g Y with e | q
    · rw [hp] at h; cases h
    · rw [hp, ok_bind] at h; cases h; exact Sieve.fit_nfeatures g s q Y hp
  | .wrapInt s, t, X, h => by
    simp only [Sieve.fit] at h
    rcases hp : s.fit g (X.map cumsum) with e | q
    · rw [hp] at h; cases h
    · rw [hp, ok_bind] at h; cases h; exact Sieve.fit_nfeatures g s q _ hp

theorem safeSieveFit_ok {g : Rng R} {s t : SafeSieve R} {X : List (List R)} (h : safeSieveFit g s X = .ok t) :
    s.1.fit g X = .ok t.1 := by
  unfold safeSieveFit at h
  split at h
  · cases h
  · next u hu => cases h; exact hu

theorem Lib.sieveCopy_ok {L : Lib R} {s t : SafeSieve R} (h : L.sieveCopy s = .ok t) : s.1.copy L.setOrder = .ok t.1 := by
  unfold Lib.sieveCopy at h
  split at h
  · cases h
  · next u hu => cases h; exact hu

/-- Copying and fitting a sieve of the library keep its number of features and whether it requires fitting. -/
theorem builtin_keepsN (L : Lib R) : (builtin L).KeepsN where
  copy v c h := Sieve.copy_nfeatures L.setOrder_ok v.1 c.1 v.2 (Lib.sieveCopy_ok h)
  fit g v C X v' h := (Sieve.fit_nfeatures g v.1 v'.1 X (safeSieveFit_ok h)).1
  requires g v C X v' h := (Sieve.fit_nfeatures g v.1 v'.1 X (safeSieveFit_ok h)).2

end Fruits
