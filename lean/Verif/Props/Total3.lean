import Verif.Props.Total2
import Verif.Props.Series2
import Verif.Props.Warp3
import Verif.Props.Cos2

/-! # The iterated sums of the library do not raise on the data they are made for (part of property C109) -/

namespace Fruits
set_option linter.unusedSectionVars false

variable {R : Type} [Field R] [LinearOrder R] [IsStrictOrderedRing R] [FloorRing R]

/-! ### Shapes of the kernels -/

theorem HasShape2.rowLen {Z : List (List R)} {d n i : ℕ} (h : HasShape2 Z d n) (hi : i < d) : (Fruits.row Z i).length = n := by
  have : i < Z.length := by rw [h.1]; exact hi
  rw [Fruits.row, List.getD_eq_getElem?_getD, List.getElem?_eq_getElem this]
  exact h.2 _ (List.getElem_mem this)

theorem HasShape2.ncols_eq {Z : List (List R)} {d n : ℕ} (h : HasShape2 Z d n) (hd : 0 < d) : ncols Z = n := by
  rcases Z with _ | ⟨z, Z⟩
  · have := h.1; simp at this; omega
  · exact h.2 z (by simp)

theorem HasShape2.setRow {Z : List (List R)} {d n i : ℕ} (h : HasShape2 Z d n) {x : List R} (hx : x.length = n) : HasShape2 (Z.set i x) d n := by
  refine ⟨by simp [h.1], fun r hr => ?_⟩
  rcases List.mem_or_eq_of_mem_set hr with h1 | rfl
  · exact h.2 r h1
  · exact hx

theorem hasShape2_replicate (e n : ℕ) (a : R) : HasShape2 (List.replicate e (List.replicate n a)) e n :=
  ⟨by simp, fun r hr => by rw [(List.mem_replicate.1 hr).2]; simp⟩

theorem iterate_len {f : List R → List R} {n : ℕ} (hf : ∀ x, x.length = n → (f x).length = n) : ∀ (k : ℕ) (x : List R), x.length = n → (f^[k] x).length = n
  | 0, _, h => h
  | k + 1, x, h => by rw [Function.iterate_succ_apply]; exact iterate_len hf k _ (hf x h)

theorem lettersMul_len {Z : List (List R)} {d n : ℕ} (hZ : HasShape2 Z d n) {el : List ℤ} (hel : el.length ≤ d) {x : List R} (hx : x.length = n) :
    (lettersMul Z el x).length = n := by
  unfold lettersMul
  refine enumFold_inv (fun letter occ tmp => letterMul Z letter occ tmp) (fun _ (y : List R) => y.length = n) 0 el x hx ?_
  intro j hj y hy
  have hr : (row Z j).length = n := hZ.rowLen (by omega)
  rw [Nat.zero_add]
  simp only [letterMul]
  split
  · exact iterate_len (fun z hz => by simp [hz, hr]) _ _ hy
  · split
    · exact iterate_len (fun z hz => by simp [hz, hr]) _ _ hy
    · exact hy

theorem lettersAdd_len {Z : List (List R)} {d n : ℕ} (hZ : HasShape2 Z d n) {el : List ℤ} (hel : el.length ≤ d) {x : List R} (hx : x.length = n) :
    (lettersAdd Z el x).length = n := by
  unfold lettersAdd
  refine enumFold_inv (fun dim (e : ℤ) tmp => vadd tmp ((row Z dim).map (fun x => (e : R) * x))) (fun _ (y : List R) => y.length = n) 0 el x hx ?_
  intro j hj y hy
  have hr : (row Z j).length = n := hZ.rowLen (by omega)
  rw [Nat.zero_add]
  simp only [vadd_length, List.length_map, hr, hy, Nat.min_self]

/-- Invariant of all the loops over the extended letters. -/
def StateN (n e : ℕ) (s : List R × List (List R)) : Prop := s.1.length = n ∧ HasShape2 s.2 e n

theorem StateN.oldRow {n e i : ℕ} {s : List R × List (List R)} (h : StateN n e s) (hi : i < e) : (s.2.getD i []).length = n :=
  h.2.rowLen hi

theorem fold_stateN {α : Type} {n e : ℕ} (f : ℕ → α → List R × List (List R) → List R × List (List R)) (xs : List α) {s : List R × List (List R)}
    (h0 : StateN n e s) (hstep : ∀ k < xs.length, ∀ a ∈ xs, ∀ s, StateN n e s → StateN n e (f k a s)) : HasShape2 (enumFold f 0 xs s).2 e n := by
  refine (enumFold_inv f (fun _ s => StateN n e s) 0 xs s h0 ?_).2
  intro j hj s hs
  rw [Nat.zero_add]
  exact hstep j hj _ (List.getElem_mem hj) s hs

section
variable {Z : List (List R)} {d n : ℕ} (hZ : HasShape2 Z d n) (hd : 0 < d) {word : List (List ℤ)} (hw : ∀ el ∈ word, el.length ≤ d) (alpha : List R)
  {g : List R} (hg : g.length = n) (ext : ℕ)
include hZ hd hw hg

theorem realsSingle_shape (expf : R → R) : HasShape2 (realsSingle expf Z word alpha g ext) ext n := by
  unfold realsSingle
  rw [hZ.ncols_eq hd]
  refine fold_stateN _ word ⟨by simp, hasShape2_replicate _ _ _⟩ fun k hk el hel s hs => ?_
  have h1 : (if k > 0 then roll1z s.1 else s.1).length = n := by split <;> simp [hs.1]
  have h2 := lettersMul_len hZ (hw el hel) h1
  have h3 : (if k > 0 then vmul (lettersMul Z el (if k > 0 then roll1z s.1 else s.1)) (expNegW expf g (alpha.getD (k - 1) 0))
      else lettersMul Z el (if k > 0 then roll1z s.1 else s.1)).length = n := by
    generalize lettersMul Z el (if k > 0 then roll1z s.1 else s.1) = y at h2
    split <;> simp [h2, hg]
  dsimp only
  generalize (if k > 0 then vmul (lettersMul Z el (if k > 0 then roll1z s.1 else s.1)) (expNegW expf g (alpha.getD (k - 1) 0))
      else lettersMul Z el (if k > 0 then roll1z s.1 else s.1)) = y at h3
  refine ⟨?_, ?_⟩
  · dsimp only
    split <;> simp [h3, hg]
  · dsimp only
    split
    · exact hs.2.setRow (by simp [h3])
    · exact hs.2

theorem totalReals_shape (expf : R → R) : HasShape2 (totalReals expf Z word alpha g ext) ext n := by
  unfold totalReals
  rw [hZ.ncols_eq hd]
  refine fold_stateN _ word ⟨by simp, hasShape2_replicate _ _ _⟩ fun k hk el hel s hs => ?_
  have h2 := lettersMul_len hZ (hw el hel) hs.1
  refine ⟨?_, ?_⟩
  · dsimp only
    split <;> simp [h2, hg]
  · dsimp only
    split
    · exact hs.2.setRow (by simp [h2, hg])
    · exact hs.2

theorem arcticSingle_shape : HasShape2 (arcticSingle Z word alpha g ext) ext n := by
  unfold arcticSingle
  rw [hZ.ncols_eq hd]
  refine fold_stateN _ word ⟨by simp, hasShape2_replicate _ _ _⟩ fun k hk el hel s hs => ?_
  have h2 := lettersAdd_len hZ (hw el hel) hs.1
  refine ⟨?_, ?_⟩
  · dsimp only
    split <;> split <;> simp [h2, hg]
  · dsimp only
    split
    · refine hs.2.setRow ?_
      rw [maxRowLoop_len]
      exact hs.oldRow (by omega)
    · exact hs.2

theorem totalArctic_shape : HasShape2 (totalArctic Z word alpha g ext) ext n := by
  unfold totalArctic
  rw [hZ.ncols_eq hd]
  refine fold_stateN _ word ⟨by simp, hasShape2_replicate _ _ _⟩ fun k hk el hel s hs => ?_
  have h2 := lettersAdd_len hZ (hw el hel) hs.1
  refine ⟨?_, ?_⟩
  · dsimp only
    split <;> simp [h2, hg]
  · dsimp only
    split
    · exact hs.2.setRow (by simp [h2, hg])
    · exact hs.2

theorem bayesianSingle_shape (expf : R → R) : HasShape2 (bayesianSingle expf Z word alpha g ext) ext n := by
  unfold bayesianSingle
  rw [hZ.ncols_eq hd]
  refine fold_stateN _ word ⟨by simp, hasShape2_replicate _ _ _⟩ fun k hk el hel s hs => ?_
  have h2 := lettersMul_len hZ (hw el hel) hs.1
  refine ⟨?_, ?_⟩
  · dsimp only
    split <;> split <;> simp [h2, hg]
  · dsimp only
    split
    · refine hs.2.setRow ?_
      rw [maxRowLoop_len]
      exact hs.oldRow (by omega)
    · exact hs.2

theorem totalBayesian_shape (expf : R → R) : HasShape2 (totalBayesian expf Z word alpha g ext) ext n := by
  unfold totalBayesian
  rw [hZ.ncols_eq hd]
  refine fold_stateN _ word ⟨by simp, hasShape2_replicate _ _ _⟩ fun k hk el hel s hs => ?_
  have h2 := lettersMul_len hZ (hw el hel) hs.1
  refine ⟨?_, ?_⟩
  · dsimp only
    split <;> simp [h2, hg]
  · dsimp only
    split
    · exact hs.2.setRow (by simp [h2, hg])
    · exact hs.2

theorem argmaxLoop_shape : HasShape2 (argmaxLoop Z word alpha g) (2 * word.length) n := by
  rw [argmaxLoop_fold, hZ.ncols_eq hd]
  refine fold_stateN _ word ⟨by simp, hasShape2_replicate _ _ _⟩ fun k hk el hel s hs => ?_
  unfold argLoopStep
  rw [hZ.ncols_eq hd]
  split
  · exact hs
  · have h2 := lettersAdd_len hZ (hw el hel) (x := zeros n) (by simp)
    dsimp only
    generalize lettersAdd Z el (zeros n) = A at h2
    have h3 : (if k > 0 then vsub (vadd s.1 A) (vscale g (alpha.getD (k - 1) 0)) else vadd s.1 A).length = n := by
      split <;> simp [h2, hs.1, hg]
    generalize (if k > 0 then vsub (vadd s.1 A) (vscale g (alpha.getD (k - 1) 0)) else vadd s.1 A) = y at h3
    refine ⟨?_, ?_⟩
    · dsimp only
      split <;> simp [h3, hg]
    · refine (hs.2.setRow ?_).setRow ?_
      · rw [(argmaxRows_spec _).1, h3]
      · rw [(argmaxRows_spec _).2.1, h3]

theorem arcticArgmax_shape : HasShape2 (arcticArgmax Z word alpha g) (triIndex word.length) n := by
  have hres := argmaxLoop_shape hZ hd hw alpha hg
  unfold arcticArgmax
  rw [hZ.ncols_eq hd]
  generalize argmaxLoop Z word alpha g = res at hres
  have hin : ∀ (index s : ℕ) (tr : List (List R)), s ≤ word.length → HasShape2 tr (triIndex word.length) n →
      HasShape2 (translateInner n res index s tr) (triIndex word.length) n := by
    intro index s
    induction s with
    | zero => intro tr _ h; exact h
    | succ s ih =>
      intro tr hs h
      simp only [translateInner]
      refine ih _ (by omega) (h.setRow ?_)
      have := hres.rowLen (i := 2 * s + 1) (by omega)
      simp only [List.length_append, List.length_take, List.length_replicate, this]
      omega
  have hout : ∀ (k : ℕ) (tr : List (List R)), k ≤ word.length → HasShape2 tr (triIndex word.length) n →
      HasShape2 (translateLoop n res k tr) (triIndex word.length) n := by
    intro k
    induction k with
    | zero => intro tr _ h; exact h
    | succ k ih =>
      intro tr hk h
      simp only [translateLoop]
      exact ih _ (by omega) (hin _ _ _ (by omega) ((h.setRow (hres.rowLen (by omega))).setRow (hres.rowLen (by omega))))
  exact hout _ _ le_rfl (hasShape2_replicate _ _ _)

theorem fastSingle_shape (expf : R → R) (k : SemiringKind) (total : Bool) :
    HasShape2 (fastSingle expf k Z word alpha g ext total) (match k with | .arcticArgmax => triIndex word.length | _ => ext) n := by
  cases k <;> cases total <;> simp only [fastSingle]
  · exact realsSingle_shape hZ hd hw alpha hg ext expf
  · exact totalReals_shape hZ hd hw alpha hg ext expf
  · exact arcticSingle_shape hZ hd hw alpha hg ext
  · exact totalArctic_shape hZ hd hw alpha hg ext
  · exact arcticArgmax_shape hZ hd hw alpha hg
  · exact arcticArgmax_shape hZ hd hw alpha hg
  · exact bayesianSingle_shape hZ hd hw alpha hg ext expf
  · exact totalBayesian_shape hZ hd hw alpha hg ext expf

end

/-- The letter gives one number for every time step of a series with `d` dimensions. -/
def LetterOn (d : ℕ) (f : BoundLetter R) : Prop := ∀ (Z : List (List R)) (n : ℕ), HasShape2 Z d n → (f Z).length = n

theorem lettersOp_len (ident : R) (op : R → R → R) {Z : List (List R)} {d n : ℕ} (hZ : HasShape2 Z d n) (hd : 0 < d) {el : List (BoundLetter R)}
    (hel : ∀ f ∈ el, LetterOn d f) : (lettersOp ident op Z el).length = n := by
  unfold lettersOp
  rw [hZ.ncols_eq hd]
  have : ∀ (el : List (BoundLetter R)) (x : List R), (∀ f ∈ el, LetterOn d f) → x.length = n →
      (el.foldl (fun C letter => List.zipWith op C (letter Z)) x).length = n := by
    intro el
    induction el with
    | nil => intro x _ h; exact h
    | cons f el ih =>
      intro x hf hx
      rw [List.foldl_cons]
      exact ih _ (fun a ha => hf a (by simp [ha])) (by simp [hx, hf f (by simp) Z n hZ])
  exact this el _ hel (by simp)

theorem slowSingle_shape (k : SemiringKind) {Z : List (List R)} {d n : ℕ} (hZ : HasShape2 Z d n) (hd : 0 < d) {word : List (List (BoundLetter R))}
    (hw : ∀ el ∈ word, ∀ f ∈ el, LetterOn d f) (ext : ℕ) : HasShape2 (slowSingle k Z word ext) ext n := by
  have hgen : ∀ (ident : R) (op : R → R → R) (cum : List R → List R), (∀ x, (cum x).length = x.length) →
      HasShape2 (genericSingle ident op cum Z word ext) ext n := by
    intro ident op cum hcum
    unfold genericSingle
    rw [hZ.ncols_eq hd]
    refine fold_stateN _ word ⟨by simp, hasShape2_replicate _ _ _⟩ fun k hk el hel s hs => ?_
    have h1 : (if k > 0 then roll1z s.1 else s.1).length = n := by split <;> simp [hs.1]
    have h2 := lettersOp_len ident op hZ hd (hw el hel)
    dsimp only
    generalize (if k > 0 then roll1z s.1 else s.1) = y at h1
    have h3 : (setFrom (setFrom y k (List.zipWith op (y.drop k) ((lettersOp ident op Z el).drop k))) k
        (cum ((setFrom y k (List.zipWith op (y.drop k) ((lettersOp ident op Z el).drop k))).drop k))).length = n := by
      simp [setFrom, hcum, h1, h2]; omega
    refine ⟨h3, ?_⟩
    dsimp only
    split
    · exact hs.2.setRow h3
    · exact hs.2
  have har : HasShape2 (arcticGenericSingle Z word ext) ext n := by
    unfold arcticGenericSingle
    rw [hZ.ncols_eq hd]
    refine fold_stateN _ word ⟨by simp, hasShape2_replicate _ _ _⟩ fun k hk el hel s hs => ?_
    have h2 := lettersOp_len (0 : R) (· + ·) hZ hd (hw el hel)
    have h3 : (maxAcc (vadd s.1 (lettersOp 0 (· + ·) Z el))).length = n := by simp [hs.1, h2]
    refine ⟨h3, ?_⟩
    dsimp only
    split
    · exact hs.2.setRow h3
    · exact hs.2
  cases k <;> simp only [slowSingle]
  · exact hgen _ _ _ (by simp)
  · exact har
  · exact har
  · exact hgen _ _ _ (by simp)

/-- The word can be used on series with `d` dimensions: it uses no other dimensions. -/
def IWord.On (d : ℕ) : IWord R → Prop
  | .simple w => ∀ el ∈ w.els, el.length ≤ d
  | .general w => ∀ el ∈ w.els, ∀ f ∈ el.bound, LetterOn d f


/-! ### Weightings -/

/-- The weighting can be used for data with `d` dimensions.  `L1` and `L2` on the raw data need a cache of series of the same length; a user function has to
give a row for every series. -/
def WeightingKind.Accepts (c : CacheMode) (d : ℕ) : WeightingKind R → Prop
  | .custom f => ∀ (X : Data R) (m n : ℕ), HasShape X m d n → 0 < m → 0 < n → ∃ L, f X = .ok L ∧ HasShape2 L m n
  | .indices _ _ _ => True
  | .norm _ onPrepared _ _ _ => onPrepared = true ∨ c = .aligned
  | .plateaus k _ _ => 1 < k

theorem nrmRow_len (x : List R) (hx : x ≠ []) : (nrmRow x).length = x.length := by
  unfold nrmRow
  rcases h1 : listMin x with _ | a
  · exact absurd (by cases x <;> simp_all [listMin]) hx
  rcases h2 : listMax x with _ | b
  · exact absurd (by cases x <;> simp_all [listMax]) hx
  simp

theorem rescale_total (scale : R) {rows : List (List R)} {m n : ℕ} (h : HasShape2 rows m n) (hn : 0 < n) :
    ∃ A, rescale scale rows = .ok A ∧ HasShape2 A m n := by
  rw [h.eq_tab]
  refine ⟨_, rescale_eq scale hn _, by simp, fun r hr => ?_⟩
  obtain ⟨i, _, rfl⟩ := mem_tab.1 hr
  rw [List.length_map, nrmRow_len _ (by rw [ne_eq, tab_eq_nil]; omega), tab_length]

theorem applyTransform_shape {f : Option (R → R)} {rows : List (List R)} {m n : ℕ} (h : HasShape2 rows m n) : HasShape2 (applyTransform f rows) m n := by
  cases f with
  | none => exact h
  | some f =>
    refine ⟨by simp [applyTransform, h.1], fun r hr => ?_⟩
    obtain ⟨x, hx, rfl⟩ := List.mem_map.1 hr
    simp [h.2 x hx]

theorem tileRow_shape {x : List R} {m n : ℕ} (h : x.length = n) : HasShape2 (tileRow m x) m n :=
  ⟨by simp [tileRow], fun r hr => by rw [(List.mem_replicate.1 hr).2]; exact h⟩

theorem getD_zero_shape {A : List (List R)} {n : ℕ} (h : HasShape2 A 1 n) : (A.getD 0 []).length = n := h.rowLen one_pos

theorem lookup_total (T : FloatText R) {c : CacheMode} {C X : Data R} {m d n : ℕ} (hX : HasShape X m d n) (hm : 0 < m) (hd : 0 < d) (hn : 0 < n)
    (hC : c.Fits C X m n) {k : WeightingKind R} (hk : k.Accepts c d) : ∃ L mL, k.lookup T C X = .ok L ∧ HasShape2 L mL n ∧ m ≤ mL := by
  have hs2 := shape2_eq hX hm hd
  cases k with
  | custom f =>
    obtain ⟨L, h1, h2⟩ := hk X m n hX hm hn
    exact ⟨L, m, h1, h2, le_rfl⟩
  | indices rel f scale =>
    simp only [WeightingKind.lookup, Indices.lookup, hs2, hX.1]
    have hb : ∀ r, HasShape2 (applyTransform f [(Indices.base r n : List R)]) 1 n := fun r =>
      applyTransform_shape ⟨rfl, fun x hx => by rw [List.mem_singleton.1 hx]; simp [Indices.base]⟩
    have key : ∀ r, ∃ L mL, (do
        let A ← rescale scale (applyTransform f [Indices.base r n])
        pure (tileRow m (A.getD 0 [])) : Except Err (List (List R))) = .ok L ∧ HasShape2 L mL n ∧ m ≤ mL := by
      intro r
      obtain ⟨A, h1, h2⟩ := rescale_total scale (hb r) hn
      refine ⟨tileRow m (A.getD 0 []), m, ?_, tileRow_shape (getD_zero_shape h2), le_rfl⟩
      rw [h1]; rfl
    cases rel with
    | true => exact key true
    | false =>
      cases f with
      | some f => exact key false
      | none =>
        simp only
        have : ∃ r, nrmInts (Indices.base false n : List R) = .ok r ∧ r.length = n := by
          have hl : (Indices.base false n : List R) ≠ [] := by
            intro h
            have := congrArg List.length h
            simp [Indices.base] at this
            omega
          unfold nrmInts
          rw [minE_ok hl, maxE_ok hl, ok_bind, ok_bind]
          refine ⟨_, rfl, ?_⟩
          split <;> simp [Indices.base]
        obtain ⟨r, h1, h2⟩ := this
        rw [h1, ok_bind]
        exact ⟨_, m, rfl, tileRow_shape (by simpa using h2), le_rfl⟩
  | norm nm op rel f scale =>
    simp only [WeightingKind.lookup, normLookup]
    have key : ∀ (rows : List (List R)) (mL : ℕ), HasShape2 rows mL n → m ≤ mL →
        ∃ L mL, rescale scale (applyTransform f (if rel then relativeRows rows else rows)) = .ok L ∧ HasShape2 L mL n ∧ m ≤ mL := by
      intro rows mL hr hle
      have : HasShape2 (if rel then relativeRows rows else rows) mL n := by
        split
        · refine ⟨by simp [relativeRows, hr.1], fun r h => ?_⟩
          obtain ⟨x, hx, rfl⟩ := List.mem_map.1 h
          simp [hr.2 x hx]
        · exact hr
      obtain ⟨A, h1, h2⟩ := rescale_total scale (applyTransform_shape (f := f) this) hn
      exact ⟨A, mL, h1, h2, hle⟩
    have hsh : ∀ (Y : Data R) (mY : ℕ), HasShape2 (tab mY fun i => tab n (variation nm (at3 Y i 0))) mY n := fun Y mY =>
      ⟨by simp, fun r hr => by obtain ⟨i, _, rfl⟩ := mem_tab.1 hr; simp⟩
    cases op with
    | true =>
      simp only [if_true]
      rw [normSum_eq nm hX hd, ok_bind]
      exact key _ m (hsh X m) le_rfl
    | false =>
      rcases hk with h | rfl
      · exact absurd h (by simp)
      · obtain ⟨mc, dc, h1, h2, h3⟩ := hC
        simp only [Bool.false_eq_true, if_false]
        rw [issSums_eq T C nm h1 h3, ok_bind]
        exact key _ mc (hsh C mc) h2
  | plateaus k rev scale =>
    simp only [WeightingKind.lookup, Plateaus.lookup, hs2, hX.1]
    have hst : ∀ (fuel i : ℕ) (x : List R), (Plateaus.steps k (n / k) fuel i x).length = x.length := by
      intro fuel
      induction fuel with
      | zero => intro i x; rfl
      | succ fuel ih => intro i x; rw [Plateaus.steps, ih, fillSlc_length (pyClip_le _ _) (pyClip_le _ _)]
    have hl : (Plateaus.steps k (n / k) k 0 (List.replicate n (1 : R))).length = n := by rw [hst]; simp
    generalize Plateaus.steps k (n / k) k 0 (List.replicate n (1 : R)) = x at hl ⊢
    obtain ⟨A, h1, h2⟩ := rescale_total scale (rows := [if rev then x.reverse else x]) (m := 1) (n := n) ⟨rfl, fun r hr => by
      rw [List.mem_singleton.1 hr]; split <;> simp [hl]⟩ hn
    refine ⟨tileRow m (A.getD 0 []), m, ?_, tileRow_shape (getD_zero_shape h2), le_rfl⟩
    rw [h1]; rfl

/-! ### `ISS` -/

/-- The `ISS` can be used on data with `d` dimensions: it has words, they use no other dimensions, `Arctic(argmax=True)` is only used in EXTENDED mode with
simple words, and the weighting is usable. -/
def ISSObj.Accepts (c : CacheMode) (o : ISSObj R) (ws : List (IWord R)) (d : ℕ) : Prop :=
  ws ≠ [] ∧ (o.conf ws none).Usable ∧ (∀ w ∈ ws, w.On d) ∧ ∀ k, o.weighting = some k → k.2.Accepts c d

theorem swapAxes_shape {A : Data R} {m rows n : ℕ} (h : ∀ a ∈ A, HasShape2 a rows n) (hA : A.length = m) : ∀ it ∈ swapAxes rows A, HasShape2 it m n := by
  intro it hit
  obtain ⟨r, hr, rfl⟩ := mem_tab.1 hit
  refine ⟨by simp [hA], fun x hx => ?_⟩
  obtain ⟨a, ha, rfl⟩ := List.mem_map.1 hx
  exact (h a ha).rowLen hr

theorem iteratedSums_shape (expf : R → R) (k : SemiringKind) {X : Data R} {m d n : ℕ} (hX : HasShape X m d n) (hd : 0 < d) {w : IWord R} (hw : w.On d)
    (ext : ℕ) {wt : Option (Weighting R)} (hwt : ∀ v, wt = some v → ∃ mL, HasShape2 (v.lookup X) mL n ∧ m ≤ mL) :
    ∀ a ∈ iteratedSums expf k X w ext wt, HasShape2 a (rowsOf k w ext) n := by
  intro a ha
  cases w with
  | simple w =>
    simp only [iteratedSums] at ha
    rw [List.mem_mapIdx] at ha
    obtain ⟨j, hj, rfl⟩ := ha
    have hZ : HasShape2 X[j] d n := hX.2 _ (List.getElem_mem hj)
    have hjm : j < m := by rw [← hX.1]; exact hj
    have hrows : rowsOf k (.simple w) ext = (match k with | .arcticArgmax => triIndex w.els.length | _ => ext) := by cases k <;> rfl
    rw [hrows]
    cases wt with
    | some v =>
      obtain ⟨mL, h1, h2⟩ := hwt v rfl
      exact fastSingle_shape hZ hd hw _ (h1.rowLen (by omega)) ext expf k _
    | none =>
      refine fastSingle_shape hZ hd hw _ ?_ ext expf k _
      rw [List.getD_eq_getElem?_getD, List.getElem?_map, List.getElem?_eq_getElem hj]
      simp [hZ.ncols_eq hd]
  | general w =>
    simp only [iteratedSums] at ha
    obtain ⟨Z, hZ, rfl⟩ := List.mem_map.1 ha
    have : rowsOf k (.general w) ext = ext := by cases k <;> rfl
    rw [this]
    refine slowSingle_shape k (hX.2 Z hZ) hd ?_ ext
    intro el hel f hf
    obtain ⟨e, he, rfl⟩ := List.mem_map.1 hel
    exact hw e he f hf

theorem iteratedSums_count (expf : R → R) (k : SemiringKind) (X : Data R) (w : IWord R) (ext : ℕ) (wt : Option (Weighting R)) :
    (iteratedSums expf k X w ext wt).length = X.length := by
  cases w <;> simp [iteratedSums]

theorem wordSums_total [NpMath R] (expf : R → R) (T : FloatText R) {c : CacheMode} {o : ISSObj R} {ws : List (IWord R)} {C X : Data R} {m d n : ℕ}
    (h : o.Accepts c ws d) (hX : HasShape X m d n) (hm : 0 < m) (hd : 0 < d) (hn : 0 < n) (hC : c.Fits C X m n) {i : ℕ} (hi : i < ws.length) :
    ∃ rows, o.wordSums expf T ws C X i = .ok rows ∧ ∀ r ∈ rows, HasShape2 r m n := by
  obtain ⟨hne, hus, hon, hwt⟩ := h
  have husw : ∀ wt, (o.conf ws wt).Usable := fun wt => hus
  obtain ⟨v, hv, hv2⟩ : ∃ v, weightingFor T C X o ws[i] = .ok v ∧ ∀ u, v = some u → ∃ mL, HasShape2 (u.lookup X) mL n ∧ m ≤ mL := by
    unfold weightingFor
    split
    · rename_i s k _ hk
      obtain ⟨L, mL, h1, h2, h3⟩ := lookup_total T hX hm hd hn hC (hwt k hk)
      refine ⟨some ⟨k.1, fun _ => L, k.2.name⟩, ?_, ?_⟩
      · unfold lookupFor
        rw [h1, ok_bind, if_pos ⟨by rw [hX.1, h2.1]; exact h3, fun r hr => by rw [shape2_eq hX hm hd]; exact h2.2 r hr⟩]
        rfl
      · intro u hu
        cases hu
        exact ⟨mL, h2, h3⟩
    · exact ⟨none, rfl, by simp⟩
  unfold ISSObj.wordSums
  rw [List.getElem?_eq_getElem hi]
  have h1 : (o.conf ws none).nBatch i 1 = .ok _ := nBatch_eq (husw none) i 1 (by simp only [ISSObj.conf]; omega)
  have h2 : (o.conf ws v).batch expf X i 1 = .ok _ := batch_eq expf (husw v) X i 1 (by simp only [ISSObj.conf]; omega)
  simp only [h1, ok_bind]
  rw [hv, ok_bind, h2]
  refine ⟨_, rfl, ?_⟩
  have e : ((o.conf ws v).words.drop i).take 1 = [ws[i]] := by
    simp only [ISSObj.conf]
    rw [List.drop_eq_getElem_cons hi]; rfl
  rw [e]
  intro r hr
  simp only [ISSConf.blockRows, List.append_nil, ISSConf.wordRows] at hr
  exact swapAxes_shape (iteratedSums_shape expf _ hX hd (hon _ (List.getElem_mem hi)) _ hv2) (by rw [iteratedSums_count, hX.1]) r hr

theorem yieldWords_total {f : ℕ → Except Err (Data R)} {Q : List (List R) → Prop} : ∀ (is : List ℕ),
    (∀ i ∈ is, ∃ rows, f i = .ok rows ∧ ∀ r ∈ rows, Q r) → (yieldWords f is).2 = none ∧ ∀ r ∈ (yieldWords f is).1, Q r
  | [], _ => ⟨rfl, by simp [yieldWords]⟩
  | i :: is, h => by
    obtain ⟨rows, h1, h2⟩ := h i (by simp)
    obtain ⟨h3, h4⟩ := yieldWords_total is fun j hj => h j (by simp [hj])
    rw [yieldWords, h1]
    refine ⟨h3, fun r hr => ?_⟩
    rcases List.mem_append.1 hr with hr | hr
    · exact h2 r hr
    · exact h4 r hr

theorem issObj_gen [NpMath R] (L : Lib R) {c : CacheMode} {o : ISSObj R} {ws : List (IWord R)} {C X : Data R} {m d n : ℕ}
    (h : o.Accepts c ws d) (hX : HasShape X m d n) (hm : 0 < m) (hd : 0 < d) (hn : 0 < n) (hC : c.Fits C X m n) :
    (BIss.gen L (.iss o) ws C X).2 = none ∧ ∀ it ∈ (BIss.gen L (.iss o) ws C X).1, HasShape2 it m n := by
  have hne : ws.length ≠ 0 := by simpa using h.1
  simp only [BIss.gen]
  rw [if_neg hne]
  exact yieldWords_total _ fun i hi => wordSums_total L.expf L.T h hX hm hd hn hC (List.mem_range.1 hi)

theorem issObj_counted {c : CacheMode} {o : ISSObj R} {ws : List (IWord R)} {d : ℕ} (h : o.Accepts c ws d) :
    ∃ k, (BIss.iss o).count ws = .ok k := by
  obtain ⟨hne, hus, _⟩ := h
  obtain ⟨f, _, h2⟩ := nBatch_total (c := o.conf ws none) (by simpa [ISSObj.conf] using hne) fun i hi =>
    ⟨_, nBatch_eq hus i 1 (by omega)⟩
  exact ⟨_, h2⟩


/-! ### `CosWISS` -/

/-- The `CosWISS` can be fitted to data with `e` dimensions and used on data with `d` dimensions: it has frequencies and words, which are simple, not empty and use
no other dimensions.  With a neural network (`ffn_size`) both numbers of dimensions have to be equal.  Not covered: `dropout` (the dropped time steps are written
without a check of the length of the series). -/
def CosWISS.Accepts (c : CosWISS R) (ws : List (IWord R)) (e d : ℕ) : Prop :=
  c.dropout = none ∧ c.freqs ≠ [] ∧ ws ≠ [] ∧ (∀ w ∈ ws, ∃ s, w = .simple s ∧ s.els ≠ [] ∧ ∀ el ∈ s.els, el.length ≤ d) ∧
    (c.ffnSize.isSome = true → e = d)

/-- The weights of the networks have been drawn, for data with `d` dimensions. -/
def CosWISS.Ready (c : CosWISS R) (ws : List (IWord R)) (d : ℕ) : Prop :=
  c.ffnSize.isSome = true → ∃ nets, c.net = some nets ∧ nets.length = ws.length ∧
    ∀ w < ws.length, ∀ f < c.freqs.length, ((nets.getD w []).getD f ⟨[], [], []⟩).Fits d

theorem mulTrig_len {x s c : List R} {n : ℕ} (a b : ℕ) (hx : x.length = n) (hs : s.length = n) (hc : c.length = n) : (mulTrig s c a b x).length = n :=
  iterate_len (fun y hy => by simp [hy, hc]) _ _ (iterate_len (fun y hy => by simp [hy, hs]) _ _ hx)

theorem coswissSingle_len [NpMath R] (pi : R) {Z : List (List R)} {d n : ℕ} (hZ : HasShape2 Z d n) (hd : 0 < d) {word : List (List ℤ)}
    (hw : ∀ el ∈ word, el.length ≤ d) (freq : R) (wts : List (List ℕ)) : (coswissSingle pi Z word freq wts).length = n := by
  unfold coswissSingle
  rw [hZ.ncols_eq hd]
  have hp : (phases pi freq n).length = n := by simp [phases]
  have hrow : ∀ wt, (cosRow Z word ((phases pi freq n).map NpMath.sin) ((phases pi freq n).map NpMath.cos) wt).length = n := by
    intro wt
    unfold cosRow
    rw [hZ.ncols_eq hd]
    have hs : ((phases pi freq n).map NpMath.sin).length = n := by simp [hp]
    have hc : ((phases pi freq n).map NpMath.cos).length = n := by simp [hp]
    generalize (phases pi freq n).map NpMath.sin = s at hs ⊢
    generalize (phases pi freq n).map NpMath.cos = c at hc ⊢
    have hin : (enumFold (fun k el (tmp : List R) =>
        let tmp := if k > 0 then roll1z tmp else tmp
        let tmp := lettersMul Z el tmp
        let tmp := mulTrig s c (wt.getD (2 * k + 1) 0) (wt.getD (2 * k + 2) 0) tmp
        cumsum tmp) 0 word (ones n)).length = n := by
      refine enumFold_inv _ (fun _ (y : List R) => y.length = n) 0 word _ (by simp) ?_
      intro j hj y hy
      dsimp only
      rw [cumsum_len]
      refine mulTrig_len _ _ (lettersMul_len hZ (hw _ (List.getElem_mem hj)) ?_) hs hc
      split <;> simp [hy]
    dsimp only
    split
    · exact mulTrig_len _ _ hin hs hc
    · exact hin
  dsimp only
  have : ∀ (l : List (List ℕ)) (x : List R), x.length = n → (l.foldl (fun result wt =>
      vadd result ((cosRow Z word ((phases pi freq n).map NpMath.sin) ((phases pi freq n).map NpMath.cos) wt).map fun v =>
        ((wt.getD 0 0 : ℕ) : R) * v)) x).length = n := by
    intro l
    induction l with
    | nil => intro x hx; exact hx
    | cons a l ih =>
      intro x hx
      rw [List.foldl_cons]
      exact ih _ (by simp [hx, hrow])
  exact this _ _ (by simp)

theorem cosFfn_shape {net : CosNet R} {Z : List (List R)} {d n : ℕ} (hZ : HasShape2 Z d n) (hd : 0 < d) (h : net.Fits d) :
    HasShape2 (cosFfn net.A net.b net.C Z) d n := by
  unfold cosFfn
  rw [hZ.ncols_eq hd]
  refine ⟨by simp [h.out], fun r hr => ?_⟩
  obtain ⟨x, _, rfl⟩ := List.mem_map.1 hr
  simp

theorem simpleWords_total : ∀ {ws : List (IWord R)} {Q : SWord R → Prop}, (∀ w ∈ ws, ∃ s, w = .simple s ∧ Q s) →
    ∃ sw, simpleWords ws = .ok sw ∧ ∀ s ∈ sw, Q s
  | [], _, _ => ⟨[], rfl, by simp⟩
  | w :: ws, Q, h => by
    obtain ⟨s, rfl, hq⟩ := h w (by simp)
    obtain ⟨sw, h1, h2⟩ := simpleWords_total (ws := ws) (Q := Q) fun v hv => h v (by simp [hv])
    refine ⟨s :: sw, by rw [simpleWords, h1]; rfl, ?_⟩
    intro t ht
    rcases List.mem_cons.1 ht with rfl | ht
    · exact hq
    · exact h2 t ht

theorem cosLoop_total [NpMath R] {pi : R} {c : CosWISS R} {X : Data R} {Q : List (List R) → Prop} : ∀ (ws : List (SWord R)) (w : ℕ),
    (∀ j (hj : j < ws.length), ∃ r, c.wordResult pi X (w + j) ws[j] = .ok r ∧ ∀ it ∈ r, Q it) →
    (c.batchLoop pi X 1 ws w []).2 = none ∧ ∀ it ∈ (c.batchLoop pi X 1 ws w []).1.flatten, Q it
  | [], _, _ => by simp [CosWISS.batchLoop]
  | word :: ws, w, h => by
    obtain ⟨r, h1, h2⟩ := h 0 (by simp)
    obtain ⟨h3, h4⟩ := cosLoop_total ws (w + 1) fun j hj => by
      have := h (j + 1) (by simp only [List.length_cons]; omega)
      rw [show w + 1 + j = w + (j + 1) by omega]
      exact this
    have h1' : c.wordResult pi X w word = .ok r := h1
    rw [CosWISS.batchLoop, h1']
    simp only [List.nil_append, List.length_singleton, if_true, List.flatten_nil, List.append_nil, List.flatten_cons]
    refine ⟨h3, fun it hit => ?_⟩
    rcases List.mem_append.1 hit with hit | hit
    · exact h2 it hit
    · exact h4 it hit

theorem cos_gen [NpMath R] (L : Lib R) {c : CosWISS R} {ws : List (IWord R)} {C X : Data R} {m e d n : ℕ} (h : c.Accepts ws e d) (hr : c.Ready ws d)
    (hX : HasShape X m d n) (hd : 0 < d) :
    (BIss.gen L (.cos c) ws C X).2 = none ∧ ∀ it ∈ (BIss.gen L (.cos c) ws C X).1, HasShape2 it m n := by
  obtain ⟨hdrop, hfr, hne, hws, _⟩ := h
  obtain ⟨sw, h1, h2⟩ := simpleWords_total hws
  have hl := simpleWords_length h1
  simp only [BIss.gen, h1, CosWISS.batchTransform]
  refine cosLoop_total sw 0 fun j hj => ?_
  rw [Nat.zero_add]
  obtain ⟨g1, g2⟩ := h2 _ (List.getElem_mem hj)
  have hsh : ∀ (F : ℕ → List (List R) → List R), (∀ f < c.freqs.length, ∀ Z ∈ X, (F f Z).length = n) →
      ∀ it ∈ (List.range c.freqs.length).map (fun f => X.map (F f)), HasShape2 it m n := by
    intro F hF it hit
    obtain ⟨f, hf, rfl⟩ := List.mem_map.1 hit
    refine ⟨by simp [hX.1], fun x hx => ?_⟩
    obtain ⟨Z, hZ, rfl⟩ := List.mem_map.1 hx
    exact hF f (List.mem_range.1 hf) Z hZ
  unfold CosWISS.wordResult
  dsimp only
  rw [if_neg (fun h => g1 h.1), hdrop]
  cases hf : c.ffnSize with
  | none =>
    simp only [if_neg g1]
    exact ⟨_, rfl, hsh _ fun f _ Z hZ => coswissSingle_len L.pi (hX.2 Z hZ) hd g2 _ _⟩
  | some k =>
    obtain ⟨nets, n1, n2, n3⟩ := hr (by rw [hf]; rfl)
    have hj' : j < nets.length := by rw [n2, ← hl]; exact hj
    simp only [n1, List.getElem?_eq_getElem hj', if_neg g1]
    refine ⟨_, rfl, hsh _ fun f hff Z hZ => coswissSingle_len L.pi (cosFfn_shape (hX.2 Z hZ) hd ?_) hd g2 _ _⟩
    have := n3 j (by rw [← n2]; exact hj') f hff
    have e1 : nets.getD j [] = nets[j] := by rw [List.getD_eq_getElem?_getD, List.getElem?_eq_getElem hj']; rfl
    rwa [e1] at this

theorem cos_fit [NpMath R] (g : Rng R) {c : CosWISS R} {ws : List (IWord R)} {X : Data R} {m e d n : ℕ} (h : c.Accepts ws e d) (hX : HasShape X m e n) (hm : 0 < m) :
    ∃ c', BIss.fit g (.cos c) ws X = .ok (.cos c') ∧ c'.Accepts ws e d ∧ c'.Ready ws d := by
  have h' := h
  obtain ⟨hdrop, hfr, hne, hws, he⟩ := h
  obtain ⟨sw, h1, _⟩ := simpleWords_total hws
  have hl := simpleWords_length h1
  have hs1 : shape1 X = e := hX.shape1_eq hm
  simp only [BIss.fit, h1, ok_bind, CosWISS.fit, hdrop]
  refine ⟨_, rfl, ⟨rfl, hfr, hne, hws, he⟩, ?_⟩
  intro hff
  simp only at hff
  obtain ⟨k, hk⟩ := Option.isSome_iff_exists.1 hff
  have hed := he hff
  simp only [hk]
  refine ⟨_, rfl, by simp [cosNets, hl], fun w hw f hf => ?_⟩
  rw [hs1, hed]
  exact cosNets_fits g _ _ _ _ w f (by rw [hl]; exact hw) hf

/-! ### All the ISS classes -/

/-- The ISS object can be fitted to data with `e` dimensions and used on data with `d` dimensions. -/
def BIss.Accepts (m : CacheMode) (i : BIss R) (ws : List (IWord R)) (e d : ℕ) : Prop :=
  match i with
  | .iss o => o.Accepts m ws d
  | .cos c => c.Accepts ws e d

/-- The ISS object has been fitted, if it has to be. -/
def BIss.Ready (i : BIss R) (ws : List (IWord R)) (d : ℕ) : Prop :=
  match i with
  | .iss _ => True
  | .cos c => c.Ready ws d

end Fruits
