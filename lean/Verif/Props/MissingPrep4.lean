import Verif.Props.MissingPrep3
import Verif.Props.MissingSieve4
import Verif.Props.Prep10
import Mathlib.Data.Rat.Floor

/-! # C171: missing values and preparateurs, part 4: other series -/

namespace Fruits
set_option linter.unusedSectionVars false
open Mv

variable {R : Type} [Field R] [LinearOrder R] [IsStrictOrderedRing R] [FloorRing R]

/-! ## Specification -/

/-- Two datasets of the same shape with the same series `i`. -/
structure NearSeries (i : ℕ) (X X' : Data (Mv R)) : Prop where
  shape : List.Forall₂ (List.Forall₂ fun x y => x.length = y.length) X X'
  same : X.getD i [] = X'.getD i []

/-! ## Proof -/

theorem getD_big {α : Type} (l : List α) (a : α) {i : ℕ} (h : l.length ≤ i) : l.getD i a = a := by
  rw [List.getD_eq_getElem?_getD, List.getElem?_eq_none h]; rfl

theorem rel_mapM_ok {α α' β β' : Type} {Q : α → α' → Prop} {Q' : β → β' → Prop} {f : α → Except Err β} {f' : α' → Except Err β'}
    (hf : ∀ a a' b b', Q a a' → f a = .ok b → f' a' = .ok b' → Q' b b') {l : List α} {l' : List α'} (h : List.Forall₂ Q l l') :
    ∀ {r : List β} {r' : List β'}, l.mapM f = .ok r → l'.mapM f' = .ok r' → List.Forall₂ Q' r r' := by
  induction h with
  | nil => intro r r' h h'; cases h; cases h'; exact .nil
  | @cons a a' l l' hab _ ih =>
    intro r r' h h'
    rw [List.mapM_cons] at h h'
    rcases h1 : f a with e | b
    · rw [h1] at h; cases h
    rcases h2 : l.mapM f with e | bs
    · rw [h1, ok_bind, h2] at h; cases h
    rcases h3 : f' a' with e | b'
    · rw [h3] at h'; cases h'
    rcases h4 : l'.mapM f' with e | bs'
    · rw [h3, ok_bind, h4] at h'; cases h'
    rw [h1, ok_bind, h2] at h
    rw [h3, ok_bind, h4] at h'
    cases h; cases h'
    exact .cons (hf _ _ _ _ hab h1 h3) (ih h2 h4)

/-- Rows of the same lengths. -/
abbrev SameLens (s s' : Series (Mv R)) : Prop := List.Forall₂ (fun x y => x.length = y.length) s s'

theorem NearSeries.mapM {i : ℕ} {X X' Z Z' : Data (Mv R)} (h : NearSeries i X X') {f : Series (Mv R) → Except Err (Series (Mv R))}
    (hf : ∀ s s' r r', SameLens s s' → f s = .ok r → f s' = .ok r' → SameLens r r') (hZ : X.mapM f = .ok Z) (hZ' : X'.mapM f = .ok Z') : NearSeries i Z Z' := by
  refine ⟨rel_mapM_ok hf h.shape hZ hZ', ?_⟩
  obtain ⟨a, b⟩ := mapM_getD hZ [] []
  obtain ⟨a', b'⟩ := mapM_getD hZ' [] []
  by_cases hi : i < X.length
  · have e := b i hi
    have e' := b' i (h.shape.length_eq ▸ hi)
    rw [h.same, e'] at e
    injection e with e
    exact e.symm
  · have := h.shape.length_eq
    rw [getD_big _ _ (by omega), getD_big _ _ (by omega)]

theorem NearSeries.mapRowsM {i : ℕ} {X X' Z Z' : Data (Mv R)} (h : NearSeries i X X') {f : List (Mv R) → Except Err (List (Mv R))}
    (hf : ∀ x y, f x = .ok y → y.length = x.length) (hZ : mapRowsM f X = .ok Z) (hZ' : mapRowsM f X' = .ok Z') : NearSeries i Z Z' :=
  h.mapM (fun _ _ _ _ hs h1 h2 => rel_mapM_ok (fun x x' y y' hx e e' => by rw [hf _ _ e, hf _ _ e', hx]) hs h1 h2) hZ hZ'

theorem NearSeries.mapRows {i : ℕ} {X X' : Data (Mv R)} (h : NearSeries i X X') {f : List (Mv R) → List (Mv R)} (hf : ∀ x, (f x).length = x.length) :
    NearSeries i (mapRows f X) (mapRows f X') :=
  h.mapRowsM (f := fun x => .ok (f x)) (fun x y e => by cases e; exact hf x) (mapM_ok_map fun s _ => mapM_ok_map fun x _ => rfl)
    (mapM_ok_map fun s _ => mapM_ok_map fun x _ => rfl)

theorem NearSeries.shape2 {i : ℕ} {X X' : Data (Mv R)} (h : NearSeries i X X') : shape2 X = shape2 X' := by
  have h1 := rel_getD (Q := SameLens) h.shape (a := []) (b := []) .nil 0
  exact rel_getD (Q := fun x y : List (Mv R) => x.length = y.length) h1 (a := []) (b := []) rfl 0

theorem NearSeries.shape1 {i : ℕ} {X X' : Data (Mv R)} (h : NearSeries i X X') : shape1 X = shape1 X' := rel_shape1 h.shape

theorem zipWith_getD_append {i : ℕ} {A B : Data (Mv R)} {f : Series (Mv R) → Series (Mv R) → Series (Mv R)} (hl : A.length = B.length) (h0 : f [] [] = []) :
    (List.zipWith f A B).getD i [] = f (A.getD i []) (B.getD i []) := by
  by_cases hi : i < A.length
  · rw [getD_getElem (by rw [List.length_zipWith]; omega), List.getElem_zipWith, getD_getElem hi, getD_getElem (by omega)]
  · rw [getD_big _ _ (by rw [List.length_zipWith]; omega), getD_big _ _ (by omega), getD_big _ _ (by omega), h0]

theorem NearSeries.zipWith {i : ℕ} {A A' B B' : Data (Mv R)} (hA : NearSeries i A A') (hB : NearSeries i B B') {f : Series (Mv R) → Series (Mv R) → Series (Mv R)}
    (hl : A.length = B.length) (hl' : A'.length = B'.length) (h0 : f [] [] = [])
    (hf : ∀ s s' r r', SameLens s s' → SameLens r r' → SameLens (f s r) (f s' r')) : NearSeries i (List.zipWith f A B) (List.zipWith f A' B') :=
  ⟨rel_zipWith (Q := SameLens) (Q' := SameLens) (Q'' := SameLens) (fun _ _ _ _ h1 h2 => hf _ _ _ _ h1 h2) hA.shape hB.shape,
    by rw [zipWith_getD_append hl h0, zipWith_getD_append hl' h0, hA.same, hB.same]⟩

theorem NearSeries.concat {i : ℕ} {A A' B B' Z Z' : Data (Mv R)} (hA : NearSeries i A A') (hB : NearSeries i B B') (hZ : concatDims A B = .ok Z) (hZ' : concatDims A' B' = .ok Z') :
    NearSeries i Z Z' := by
  unfold concatDims at hZ hZ'
  split at hZ
  · split at hZ'
    · rename_i h h'
      cases hZ; cases hZ'
      exact hA.zipWith hB h.1 h'.1 rfl fun _ _ _ _ h1 h2 => rel_append h1 h2
    · cases hZ'
  · cases hZ

theorem NearSeries.appendDims {i : ℕ} {A A' B B' Z Z' : Data (Mv R)} (hA : NearSeries i A A') (hB : NearSeries i B B') (hZ : appendDims A B = .ok Z)
    (hZ' : appendDims A' B' = .ok Z') : NearSeries i Z Z' := by
  unfold Fruits.appendDims at hZ hZ'
  rw [← hA.shape.length_eq, ← hB.shape.length_eq, ← hA.shape2, ← hB.shape2] at hZ'
  by_cases h1 : A.length = B.length
  swap
  · rw [if_neg h1] at hZ; cases hZ
  have h1' : A'.length = B'.length := by rw [← hA.shape.length_eq, ← hB.shape.length_eq]; exact h1
  rw [if_pos h1] at hZ hZ'
  by_cases h2 : Fruits.shape2 B = Fruits.shape2 A
  · rw [if_pos h2] at hZ hZ'
    cases hZ; cases hZ'
    exact hA.zipWith hB h1 h1' rfl fun _ _ _ _ h1 h2 => rel_append h1 h2
  rw [if_neg h2] at hZ hZ'
  by_cases h3 : Fruits.shape2 B = 1
  · rw [if_pos h3] at hZ hZ'
    cases hZ; cases hZ'
    refine hA.zipWith (f := fun s t => s ++ t.map fun y => List.replicate (Fruits.shape2 A) (y.getD 0 0)) hB h1 h1' rfl fun _ _ _ _ h1 h2 => ?_
    refine rel_append h1 (rel_map (fun x y _ => ?_) h2)
    rw [List.length_replicate, List.length_replicate]
  · rw [if_neg h3] at hZ; cases hZ

/-! Lengths of rows. -/

theorem mvIncLoop_length (p : INC R) (n : ℕ) (x : List (Mv R)) (k : ℕ) (out y : List (Mv R)) (h : p.loop n x k out = .ok y) :
    y.length = out.length := by
  induction k generalizing out with
  | zero => cases h; rfl
  | succ k ih =>
    rw [INC.loop] at h
    rcases h1 : increments1 (p.shift.eval n) out with e | o1
    · rw [h1] at h; cases h
    rw [h1, ok_bind] at h
    simp only [pure_bind] at h
    rw [← mvInc_length h1]
    split at h
    · exact ih _ h
    · rcases h2 : p.shift.restore x o1 with e | o2
      · rw [h2] at h; cases h
      rw [h2, ok_bind] at h
      rw [ih _ h]
      unfold Shift.restore at h2
      split at h2
      · exact setSlc_length (pyClip_le _ _) (Nat.zero_le _) h2
      · cases h2
      · cases h2

theorem mvMav_length (w : ℕ) (x : List (Mv R)) : (MAV.row w x).length = x.length := by
  unfold MAV.row
  have : ∀ (l : List ℕ) (r : List (Mv R)), (l.foldl (fun res (k : ℕ) =>
      res.set (k - 1) ((slc x ((k : ℤ) - w) k).sum / (w : Mv R))) r).length = r.length := by
    intro l
    induction l with
    | nil => intro r; rfl
    | cons a l ih => intro r; rw [List.foldl_cons, ih]; simp
  rw [this]; simp [zeros]

theorem mvFillFold_length {ι : Type} (l : List ι) (f : List (Mv R) → ι → ℕ × ℕ)
    (hf : ∀ y e, (f y e).1 ≤ y.length ∧ (f y e).2 ≤ y.length) (x : List (Mv R)) :
    (l.foldl (fun y e => fillSlc y (f y e).1 (f y e).2 0) x).length = x.length := by
  induction l generalizing x with
  | nil => rfl
  | cons a l ih => rw [List.foldl_cons, ih, fillSlc_length (hf x a).2 (hf x a).1]

theorem mvLag_shape {x : List (Mv R)} {rs : List (List (Mv R))} (h : LAG.rows x = .ok rs) :
    rs.length = 2 ∧ ∀ r ∈ rs, r.length = 2 * x.length - 1 := by
  unfold LAG.rows at h
  split at h
  · cases h
  simp only at h
  rcases h1 : setStride (zeros (2 * x.length - 1)) 0 2 x with e | l1
  · rw [h1] at h; cases h
  rw [h1, ok_bind] at h
  rcases h2 : setStride l1 1 2 (slcFrom x 1) with e | l2
  · rw [h2] at h; cases h
  rw [h2, ok_bind, ok_bind] at h
  rcases h3 : setStride l1 1 2 (slcTo x (-1)) with e | l3
  · rw [h3] at h; cases h
  rw [h3, ok_bind] at h
  cases h
  have e1 := setStride_length h1
  have e2 := setStride_length h2
  have e3 := setStride_length h3
  refine ⟨rfl, fun r hr => ?_⟩
  simp only [List.mem_cons, List.not_mem_nil, or_false] at hr
  simp only [zeros, List.length_replicate] at e1
  rcases hr with rfl | rfl <;> omega

theorem mvCts_length {ps : Bool} {k : ℤ} {x y : List (Mv R)} (h : CTS.row ps k x = .ok y) : y.length = x.length := by
  unfold CTS.row at h
  cases ps with
  | true =>
    simp only [if_true] at h
    cases h
    exact fillSlc_length (pyClip_le _ _) (Nat.zero_le _) _
  | false =>
    simp only [Bool.false_eq_true, if_false] at h
    generalize hz : setSlc x _ _ _ = z at h
    rcases z with e | z
    · cases h
    rw [ok_bind] at h
    have h1 := setSlc_length (by first | exact le_rfl | exact pyClip_le _ _) (by first | exact Nat.zero_le _ | exact pyClip_le _ _) hz
    have h2 := setSlc_length (by first | exact le_rfl | exact pyClip_le _ _) (by first | exact Nat.zero_le _ | exact pyClip_le _ _) h
    rw [h2, h1]

theorem mvDot_length {n k : ℤ} {x y : List (Mv R)} (h : DOT.row n k x = .ok y) : y.length = x.length := by
  unfold DOT.row at h
  split at h
  · cases h
  · cases h; simp

theorem mvWin_length {u v : ℕ} {x y : List (Mv R)} (h : WIN.row u v x = .ok y) : y.length = x.length := by
  unfold WIN.row at h
  have := setSlc_length (by simpa [zeros] using pyClip_le _ _) (by simpa [zeros] using pyClip_le _ _) h
  simpa [zeros] using this

theorem coqs_get {C C' : Data (Mv R)} {q : R} {a a' : List ℕ} {i : ℕ} (hC : C.getD i [] = C'.getD i []) (ha : Mv.coqs C q = .ok a)
    (ha' : Mv.coqs C' q = .ok a') {u u' : ℕ} (hu : a[i]? = some u) (hu' : a'[i]? = some u') : u = u' := by
  have key : ∀ {C : Data (Mv R)} {a : List ℕ} {u : ℕ}, Mv.coqs C q = .ok a → a[i]? = some u →
      ∃ y, increments1 1 ((C.getD i []).getD 0 []) = .ok y ∧ u = Mv.coquantile1 q (cumsum (y.map (lift Norm.L2.val))) := by
    intro C a u h hu
    unfold Mv.coqs Mv.normSum at h
    generalize hs : C.mapM (m := Except Err) _ = s at h
    rcases s with e | s
    · cases h
    rw [ok_bind] at h
    cases h
    rw [List.getElem?_map] at hu
    rcases hsi : s[i]? with _ | z
    · rw [hsi] at hu; cases hu
    rw [hsi, Option.map_some] at hu
    injection hu with hu
    obtain ⟨hl, hg⟩ := mapM_getD hs [] []
    have hi : i < s.length := (List.getElem?_eq_some_iff.1 hsi).1
    have := hg i (hl ▸ hi)
    rw [List.getD_eq_getElem?_getD (l := s), hsi, Option.getD_some] at this
    rcases hy : increments1 1 ((C.getD i []).getD 0 []) with e | y
    · rw [hy] at this; cases this
    rw [hy, ok_bind] at this
    injection this with this
    exact ⟨y, rfl, by rw [← hu, ← this]⟩
  obtain ⟨y, hy, e⟩ := key ha hu
  obtain ⟨y', hy', e'⟩ := key ha' hu'
  rw [hC, hy'] at hy
  injection hy with hy
  rw [e, e', hy]

theorem near_win {i : ℕ} {C C' X X' Z Z' : Data (Mv R)} (hC : C.getD i [] = C'.getD i []) (h : NearSeries i X X') (p : WIN R)
    (hZ : winTransform C p X = .ok Z) (hZ' : winTransform C' p X' = .ok Z') : NearSeries i Z Z' := by
  unfold winTransform at hZ hZ'
  rcases h1 : Mv.coqs C p.start with e | a
  · rw [h1] at hZ; cases hZ
  rcases h2 : Mv.coqs C p.stop with e | b
  · rw [h1, ok_bind, h2] at hZ; cases hZ
  rcases h3 : Mv.coqs C' p.start with e | a'
  · rw [h3] at hZ'; cases hZ'
  rcases h4 : Mv.coqs C' p.stop with e | b'
  · rw [h3, ok_bind, h4] at hZ'; cases hZ'
  rw [h1, ok_bind, h2, ok_bind] at hZ
  rw [h3, ok_bind, h4, ok_bind, ← h.shape.length_eq] at hZ'
  have hrow : ∀ {a b : List ℕ} {k : ℕ} {s r : Series (Mv R)}, (match a[k]?, b[k]? with
      | some u, some v => s.mapM (WIN.row u v)
      | _, _ => .error .indexError) = Except.ok r → ∃ u v, a[k]? = some u ∧ b[k]? = some v ∧ s.mapM (WIN.row u v) = .ok r := by
    intro a b k s r h
    rcases ha : a[k]? with _ | u
    · rw [ha] at h; cases h
    rcases hb : b[k]? with _ | v
    · rw [ha, hb] at h; cases h
    rw [ha, hb] at h
    exact ⟨u, v, rfl, rfl, h⟩
  refine ⟨rel_mapM_ok (Q := fun k k' => k = k') (fun k k' r r' hk e e' => ?_) (List.forall₂_refl _) hZ hZ', ?_⟩
  · subst hk
    obtain ⟨_, _, _, _, g⟩ := hrow e
    obtain ⟨_, _, _, _, g'⟩ := hrow e'
    exact rel_mapM_ok (fun x x' y y' hx e e' => by rw [mvWin_length e, mvWin_length e', hx])
      (rel_getD (Q := SameLens) h.shape (a := []) (b := []) .nil k) g g'
  · obtain ⟨l, g⟩ := mapM_getD hZ 0 []
    obtain ⟨l', g'⟩ := mapM_getD hZ' 0 []
    by_cases hi : i < X.length
    · have e := g i (by rw [List.length_range]; exact hi)
      have e' := g' i (by rw [List.length_range]; exact hi)
      rw [List.getD_eq_getElem?_getD (l := List.range _), List.getElem?_range hi, Option.getD_some] at e e'
      obtain ⟨u, v, hu, hv, e⟩ := hrow e
      obtain ⟨u', v', hu', hv', e'⟩ := hrow e'
      rw [h.same, coqs_get hC h1 h3 hu hu', coqs_get hC h2 h4 hv hv', e'] at e
      injection e with e
      exact e.symm
    · rw [List.length_range] at l l'
      rw [getD_big _ _ (by omega), getD_big _ _ (by omega)]

theorem near_transform [NpMath R] {i : ℕ} (q : MPrep R) : ∀ {C C' X X' Z Z' : Data (Mv R)}, C.getD i [] = C'.getD i [] → NearSeries i X X' →
    q.transformC C X = .ok Z → q.transformC C' X' = .ok Z' → NearSeries i Z Z' := by
  induction q with
  | inc p =>
    intro C C' X X' Z Z' _ h hZ hZ'
    simp only [MPrep.transformC] at hZ hZ'
    rw [← h.shape2] at hZ'
    exact h.mapRowsM (fun x y e => mvIncLoop_length _ _ _ _ _ _ e) hZ hZ'
  | std p =>
    intro C C' X X' Z Z' _ h hZ hZ'
    simp only [MPrep.transformC, MSTD.transform] at hZ hZ'
    by_cases hp : p.separately = true
    · rw [if_pos hp] at hZ hZ'
      cases hZ; cases hZ'
      exact h.mapRows fun x => by simp [MSTD.row]
    · rw [if_neg hp] at hZ hZ'
      rcases hf : p.fitted with _ | ⟨mu, sd⟩
      · rw [hf] at hZ; cases hZ
      rw [hf] at hZ hZ'
      cases hZ; cases hZ'
      exact h.mapRows fun x => by simp
  | nrm b =>
    intro C C' X X' Z Z' _ h hZ hZ'
    simp only [MPrep.transformC, nrmTransform] at hZ hZ'
    cases b with
    | true =>
      simp only [if_true] at hZ hZ'
      have key : ∀ {s r : Series (Mv R)}, (do
          let los ← s.mapM Mv.minE
          let lo ← Mv.minE los
          let his ← s.mapM Mv.maxE
          let hi ← Mv.maxE his
          pure (s.map fun x => x.map (nrmEntry lo hi))) = Except.ok r → ∃ f : Mv R → Mv R, r = s.map fun x => x.map f := by
        intro s r h
        rcases h1 : s.mapM Mv.minE with e | los
        · rw [h1] at h; cases h
        rcases h2 : Mv.minE los with e | lo
        · rw [h1, ok_bind, h2] at h; cases h
        rcases h3 : s.mapM Mv.maxE with e | his
        · rw [h1, ok_bind, h2, ok_bind, h3] at h; cases h
        rcases h4 : Mv.maxE his with e | hi
        · rw [h1, ok_bind, h2, ok_bind, h3, ok_bind, h4] at h; cases h
        rw [h1, ok_bind, h2, ok_bind, h3, ok_bind, h4, ok_bind] at h
        cases h
        exact ⟨_, rfl⟩
      refine h.mapM (fun s s' r r' hs e e' => ?_) hZ hZ'
      obtain ⟨f, rfl⟩ := key e
      obtain ⟨f', rfl⟩ := key e'
      exact rel_map (fun x y hxy => by rw [List.length_map, List.length_map]; exact hxy) hs
    | false =>
      simp only [Bool.false_eq_true, if_false] at hZ hZ'
      refine h.mapRowsM (fun x y e => ?_) hZ hZ'
      rcases h1 : Mv.minE x with _ | lo
      · rw [h1] at e; cases e
      rcases h2 : Mv.maxE x with _ | hi
      · rw [h1, ok_bind, h2] at e; cases e
      rw [h1, ok_bind, h2, ok_bind] at e
      cases e
      simp
  | mav p =>
    intro C C' X X' Z Z' _ h hZ hZ'
    simp only [MPrep.transformC] at hZ hZ'
    rcases hf : p.w with _ | w
    · rw [hf] at hZ; cases hZ
    rw [hf] at hZ hZ'
    cases hZ; cases hZ'
    exact h.mapRows fun x => mvMav_length w x
  | lag =>
    intro C C' X X' Z Z' _ h hZ hZ'
    simp only [MPrep.transformC, LAG.transform] at hZ hZ'
    refine h.mapM (fun s s' r r' hs e e' => ?_) hZ hZ'
    rcases h1 : s.mapM LAG.rows with _ | rs
    · rw [h1] at e; cases e
    rcases h2 : s'.mapM LAG.rows with _ | rs'
    · rw [h2] at e'; cases e'
    rw [h1, ok_bind] at e
    rw [h2, ok_bind] at e'
    cases e; cases e'
    refine forall₂_flatten (rel_mapM_ok (Q' := SameLens) (fun x x' y y' hx e e' => ?_) hs h1 h2)
    obtain ⟨l, g⟩ := mvLag_shape e
    obtain ⟨l', g'⟩ := mvLag_shape e'
    refine List.forall₂_iff_get.2 ⟨by omega, fun k hk hk' => ?_⟩
    rw [g _ (List.get_mem _ _), g' _ (List.get_mem _ _), hx]
  | cts p =>
    intro C C' X X' Z Z' _ h hZ hZ'
    simp only [MPrep.transformC] at hZ hZ'
    rw [← h.shape2] at hZ'
    exact h.mapRowsM (fun x y e => mvCts_length e) hZ hZ'
  | qtc p =>
    intro C C' X X' Z Z' _ h hZ hZ'
    simp only [MPrep.transformC, MQTC.transform] at hZ hZ'
    rcases hf : p.quantile with _ | c
    · rw [hf] at hZ; cases hZ
    rw [hf] at hZ hZ'
    dsimp only at hZ hZ'
    by_cases hp : p.lower = true
    · rw [if_pos hp] at hZ hZ'
      cases hZ; cases hZ'
      exact h.mapRows fun x => by simp
    · rw [if_neg hp] at hZ hZ'
      cases hZ; cases hZ'
      exact h.mapRows fun x => by simp
  | dil p =>
    intro C C' X X' Z Z' _ h hZ hZ'
    simp only [MPrep.transformC] at hZ hZ'
    rcases hf : p.fitted with _ | ⟨a, l⟩
    · rw [hf] at hZ; cases hZ
    rw [hf] at hZ hZ'
    cases hZ; cases hZ'
    exact h.mapRows fun x => mvFillFold_length _ (fun y (e : ℕ × ℕ) => (pyClip y.length (e.1 : ℤ), pyClip y.length ((e.1 + l.getD e.2 0 : ℕ) : ℤ)))
      (fun y e => ⟨by dsimp only; exact pyClip_le _ _, by dsimp only; exact pyClip_le _ _⟩) x
  | win p => intro C C' X X' Z Z' hC h hZ hZ'; exact near_win hC h p hZ hZ'
  | dot p =>
    intro C C' X X' Z Z' _ h hZ hZ'
    simp only [MPrep.transformC] at hZ hZ'
    rcases hf : p.fitted with _ | ⟨a, l⟩
    · rw [hf] at hZ; cases hZ
    rw [hf] at hZ hZ'
    exact h.mapRowsM (fun x y e => mvDot_length e) hZ hZ'
  | pdd p =>
    intro C C' X X' Z Z' _ h hZ hZ'
    simp only [MPrep.transformC] at hZ hZ'
    rcases hf : p.fitted with _ | ⟨a, w⟩
    · rw [hf] at hZ; cases hZ
    rw [hf] at hZ hZ'
    cases hZ; cases hZ'
    exact h.mapRows fun x => mvFillFold_length _ (fun y (i : ℤ) => (pyClip y.length i, pyClip y.length (i + w)))
      (fun _ _ => ⟨pyClip_le _ _, pyClip_le _ _⟩) x
  | dim p dims ih =>
    intro C C' X X' Z Z' _ h hZ hZ'
    simp only [MPrep.transformC] at hZ hZ'
    rcases h1 : selectDims dims X with _ | sub
    · rw [h1] at hZ; cases hZ
    rcases h2 : p.transformC sub sub with _ | Y
    · rw [h1, ok_bind, h2] at hZ; cases hZ
    rcases h3 : deleteDims dims X with _ | rest
    · rw [h1, ok_bind, h2, ok_bind, h3] at hZ; cases hZ
    rcases h1' : selectDims dims X' with _ | sub'
    · rw [h1'] at hZ'; cases hZ'
    rcases h2' : p.transformC sub' sub' with _ | Y'
    · rw [h1', ok_bind, h2'] at hZ'; cases hZ'
    rcases h3' : deleteDims dims X' with _ | rest'
    · rw [h1', ok_bind, h2', ok_bind, h3'] at hZ'; cases hZ'
    rw [h1, ok_bind, h2, ok_bind, h3, ok_bind] at hZ
    rw [h1', ok_bind, h2', ok_bind, h3', ok_bind] at hZ'
    have hsel : NearSeries i sub sub' := by
      refine h.mapM (fun s s' r r' hs e e' => ?_) h1 h1'
      have := rel_select (Q := fun x y : List (Mv R) => x.length = y.length) rfl dims (X := [s]) (Y := [s']) (.cons hs .nil)
      simp only [selectDims, List.mapM_cons, List.mapM_nil] at this
      rw [e, e'] at this
      cases this with
      | ok h => cases h with
        | cons h _ => exact h
    have hdel : NearSeries i rest rest' := by
      refine h.mapM (fun s s' r r' hs e e' => ?_) h3 h3'
      have := rel_delete (Q := fun x y : List (Mv R) => x.length = y.length) dims (X := [s]) (Y := [s']) (.cons hs .nil)
      simp only [deleteDims, List.mapM_cons, List.mapM_nil] at this
      rw [e, e'] at this
      cases this with
      | ok h => cases h with
        | cons h _ => exact h
    exact hdel.concat (ih hsel.same hsel h2 h2') hZ hZ'
  | dup =>
    intro C C' X X' Z Z' _ h hZ hZ'
    simp only [MPrep.transformC] at hZ hZ'
    cases hZ; cases hZ'
    exact h.mapM (f := fun s => .ok (s ++ s)) (fun s s' r r' hs e e' => by cases e; cases e'; exact rel_append hs hs)
      (mapM_ok_map fun _ _ => rfl) (mapM_ok_map fun _ _ => rfl)
  | new p ih =>
    intro C C' X X' Z Z' _ h hZ hZ'
    simp only [MPrep.transformC] at hZ hZ'
    rcases h2 : p.transformC X X with _ | Y
    · rw [h2] at hZ; cases hZ
    rcases h2' : p.transformC X' X' with _ | Y'
    · rw [h2'] at hZ'; cases hZ'
    rw [h2, ok_bind] at hZ
    rw [h2', ok_bind] at hZ'
    exact h.appendDims (ih h.same h h2 h2') hZ hZ'

/-- **C171.** What a fitted preparateur (`WIN` included) returns for a series depends on this series only: values and missing values of the other series do
not matter. -/
theorem C171_other_series [NpMath R] {m d n i : ℕ} (q : MPrep R) {X X' Z Z' : Data (Mv R)} (hX : HasShape X m d n) (hX' : HasShape X' m d n)
    (hi : X.getD i [] = X'.getD i []) (hZ : q.transformC X X = .ok Z) (hZ' : q.transformC X' X' = .ok Z') : Z.getD i [] = Z'.getD i [] := by
  refine (near_transform q hi ⟨?_, hi⟩ hZ hZ').same
  rw [hX.eq_tab3, hX'.eq_tab3]
  exact forall₂_tab' fun _ _ => forall₂_tab' fun _ _ => by rw [tab_length, tab_length]

/-! ## Counterexamples and concrete cases -/

/-- One series `1, 2, nan`. -/
def gapData : Data (Mv ℚ) := [[[.num 1, .num 2, .nan]]]
/-- The series `1, 2, 3`. -/
def gapFree : Data ℚ := [[[1, 2, 3]]]
/-- Two series, `1, 2` and `3, nan`. -/
def gapTwo : Data (Mv ℚ) := [[[.num 1, .num 2]], [[.num 3, .nan]]]
/-- Two series, `1, 2` and `3, 4`. -/
def gapNone : Data (Mv ℚ) := [[[.num 1, .num 2]], [[.num 3, .num 4]]]

theorem toOption_ok {α : Type} {x : Except Err α} {a : α} (h : x.toOption = some a) : x = .ok a := by
  cases x with
  | error e => cases h
  | ok b => cases h; rfl

theorem gapData_of : DataOf True gapData gapFree :=
  .cons (.cons (.cons (.inl rfl) (.cons (.inl rfl) (.cons (.inr ⟨trivial, rfl⟩) .nil))) .nil) .nil

/-- **C171 (counterexample).** `WIN(0, 1)`, which keeps the whole series, returns `0, 0, 0` for `1, 2, nan`: the entries are neither missing nor the
true values `1, 2, 3`. -/
theorem C171_counterexample [NpMath ℚ] (T : FloatText ℚ) (hT : T.Lawful) :
    (Prep.win ⟨0, 1⟩).transformC T gapFree gapFree = .ok gapFree ∧ (MPrep.win ⟨0, 1⟩).transformC gapData gapData = .ok [[[0, 0, 0]]] ∧
    ¬ Both (DataOf True) ((MPrep.win ⟨0, 1⟩).transformC gapData gapData) ((Prep.win ⟨0, 1⟩).transformC T gapFree gapFree) := by
  have h2 : (MPrep.win (⟨0, 1⟩ : WIN ℚ)).transformC gapData gapData = .ok [[[0, 0, 0]]] :=
    toOption_ok (show (winTransform gapData (⟨0, 1⟩ : WIN ℚ) gapData).toOption = _ by decide +kernel)
  have h3 : (MPrep.win (⟨0, 1⟩ : WIN ℚ)).transformC (knownData gapFree) (knownData gapFree) = .ok (knownData gapFree) :=
    toOption_ok (show (winTransform (knownData gapFree) (⟨0, 1⟩ : WIN ℚ) (knownData gapFree)).toOption = _ by decide +kernel)
  have h1 : (Prep.win (⟨0, 1⟩ : WIN ℚ)).transformC T gapFree gapFree = .ok gapFree := by
    have h := C171_none_missing T hT (KnownPrep.win (⟨0, 1⟩ : WIN ℚ)) gapFree gapFree
    rw [h3] at h
    revert h
    rcases (Prep.win (⟨0, 1⟩ : WIN ℚ)).transformC T gapFree gapFree with e | Z
    · intro h; cases h
    · intro h
      injection h with h
      have hinj : Function.Injective (knownData (R := ℚ)) := by
        have hnum : Function.Injective (Mv.num (R := ℚ)) := fun a b h => by injection h
        exact (List.map_injective_iff.2 (List.map_injective_iff.2 (List.map_injective_iff.2 hnum)))
      rw [hinj h]
  refine ⟨h1, h2, ?_⟩
  rw [h1, h2]
  intro h
  cases h with
  | ok h =>
    cases h with
    | cons h _ => cases h with
      | cons h _ => cases h with
        | cons h _ =>
          rcases h with h | ⟨_, h⟩
          · injection h with h; exact absurd h (by norm_num)
          · cases h

/-- Square roots and a random generator for the examples (not used by them). -/
local instance gapMath : NpMath ℚ := ⟨id, id, fun a _ => a, id, id⟩
/-- A random generator (not used). -/
def gapRng : Rng ℚ := ⟨fun _ lo _ => lo, fun _ _ k => List.range k, fun _ _ _ => 0, fun _ _ => 0, fun _ _ => 0, id⟩

/-- **C171 (counterexample).** `STD(separately=False, var=False)` and `QTC(0)` fitted to two series: the missing value of the second series changes what
the first series is transformed to. -/
theorem C171_counterexample_fit : gapTwo.getD 0 [] = gapNone.getD 0 [] ∧
    ((MPrep.std ⟨false, false, 1, none⟩).fit gapRng gapNone >>= fun q => q.transformC gapNone gapNone).toOption.map (fun Z => Z.getD 0 []) =
      some [[.num (-3/4), .num (-1/4)]] ∧
    ((MPrep.std ⟨false, false, 1, none⟩).fit gapRng gapTwo >>= fun q => q.transformC gapTwo gapTwo).toOption.map (fun Z => Z.getD 0 []) =
      some [[.nan, .nan]] ∧
    ((MPrep.qtc ⟨0, false, none, none⟩).fit gapRng gapNone >>= fun q => q.transformC gapNone gapNone).toOption.map (fun Z => Z.getD 0 []) =
      some [[.num 1, .num 1]] ∧
    ((MPrep.qtc ⟨0, false, none, none⟩).fit gapRng gapTwo >>= fun q => q.transformC gapTwo gapTwo).toOption.map (fun Z => Z.getD 0 []) =
      some [[.num 1, .num 2]] := by
  refine ⟨rfl, ?_, ?_, ?_, ?_⟩ <;> decide +kernel

/-- Non-vacuity of `C171_sound_partial` and `C171_none_missing`: `DIM(INC, 0)` and `NEW(MAV(2))`. -/
example : KnownPrep (R := ℚ) (.dim (.inc {}) [0]) (.dim (.inc {}) [0]) ∧ (MPrep.dim (.inc {}) [0] : MPrep ℚ).NoWin ∧
    KnownPrep (R := ℚ) (.new (some (.mav ⟨.int 2, some 2⟩))) (.new (.mav ⟨.int 2, some 2⟩)) ∧ DataOf True gapData gapFree :=
  ⟨.dim (.inc _) _, trivial, .new (.mav _), gapData_of⟩

/-- Non-vacuity of `C171_inc`, `C171_mav` and `C171_sound_partial`: what the increments, the moving average, the scaling to `[0, 1]` and the lead-lag
transform of `1, nan, 4, 6` are. -/
example : ((MPrep.inc (R := ℚ) ⟨.int 1, 1, true⟩).transformC [] [[[.num 1, .nan, .num 4, .num 6]]]).toOption =
      some [[[.num 0, .nan, .nan, .num 2]]] ∧
    ((MPrep.mav (R := ℚ) ⟨.int 2, some 2⟩).transformC [] [[[.num 1, .nan, .num 4, .num 6]]]).toOption = some [[[.num 0, .nan, .nan, .num 5]]] ∧
    ((MPrep.nrm (R := ℚ) false).transformC [] [[[.num 1, .nan, .num 4, .num 6], [.num 1, .num 3, .num 1, .num 2]]]).toOption =
      some [[[.nan, .nan, .nan, .nan], [.num 0, .num 1, .num 0, .num (1/2)]]] ∧
    ((MPrep.lag (R := ℚ)).transformC [] [[[.num 1, .nan, .num 4]]]).toOption =
      some [[[.num 1, .nan, .nan, .num 4, .num 4], [.num 1, .num 1, .nan, .nan, .num 4]]] := by
  refine ⟨?_, ?_, ?_, ?_⟩ <;> decide +kernel

/-- Non-vacuity of `C171_win_counterexample`. -/
example : CompletesData 1 1 3 gapData gapFree ∧ at3 gapData 0 0 2 = Mv.nan := by
  refine ⟨⟨⟨rfl, by decide⟩, ⟨rfl, by decide⟩, ?_⟩, rfl⟩
  intro i j t x h
  rcases i with _ | i
  · rcases j with _ | j
    · rcases t with _ | _ | _ | t
      · injection h
      · injection h
      · cases h
      · injection h
    · injection h
  · injection h

/-- Non-vacuity of `C171_other_series`, `C171_std_fit_counterexample` and `C171_qtc_fit_counterexample`. -/
example : HasShape gapTwo 2 1 2 ∧ HasShape gapNone 2 1 2 ∧ gapTwo.getD 0 [] = gapNone.getD 0 [] ∧ Mv.nan ∈ gapTwo.flatten.flatten ∧
    ((MPrep.new (.inc {}) : MPrep ℚ).transformC gapTwo gapTwo).toOption = some [[[.num 1, .num 2], [.num 0, .num 1]], [[.num 3, .nan], [.num 0, .nan]]] ∧
    ((MPrep.new (.inc {}) : MPrep ℚ).transformC gapNone gapNone).toOption = some [[[.num 1, .num 2], [.num 0, .num 1]], [[.num 3, .num 4], [.num 0, .num 1]]] := by
  refine ⟨⟨rfl, by decide⟩, ⟨rfl, by decide⟩, rfl, by decide, ?_, ?_⟩ <;> decide +kernel

end Fruits
